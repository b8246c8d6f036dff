{"id": "C01", "title": "Trigger order respects current-iteration dependencies", "statement": "Whenever the trigger order of a simulation is computed successfully, an object that reads an output of another object in the current iteration (no ':-1' suffix) is given a strictly larger trigger index than the object it reads from, and that producer is itself in the order.", "quantifier": "all parameter dictionaries (any number of objects, any input graph, single and list inputs, delays 0 or negative)", "why_tests_cant": "The set of input graphs is infinite and the algorithm removes objects from the dictionary while it iterates; a test only sees a few graphs.", "anchors": ["specula/simul.py: Simul.build_trigger_order, is_leaf, has_delayed_output, remove_inputs, output_owner, output_delay"]}
{"id": "C02", "title": "Delayed links: the consumer runs before the producer overwrites its output", "statement": "Whenever the trigger order is computed successfully, an object that reads an output with a ':-1' suffix appears earlier in the order than the (different) object that produces that output, with a trigger index not larger than the producer's, so it reads the value left by the previous iteration.", "quantifier": "all parameter dictionaries for which the order is computed; all delayed links", "why_tests_cant": "Holds for every graph and every dictionary order; tests only check a handful of loops.", "anchors": ["specula/simul.py: Simul.build_trigger_order, has_delayed_output"]}
{"id": "C03", "title": "Every schedulable object is triggered, exactly once per iteration", "statement": "The trigger order never contains an object twice and only contains objects of the parameter file; if the dependencies are well founded (undelayed links and reversed delayed links have no cycle, every referenced object exists) the computation succeeds and contains every object; an object left out (with only a printed warning) always has an undelayed input from another object that is left out or does not exist.", "quantifier": "all parameter dictionaries", "why_tests_cant": "Completeness is a statement about all acyclic graphs; silent omission produces no error a test would see.", "anchors": ["specula/simul.py: Simul.build_trigger_order"]}
{"id": "C04", "title": "Current-iteration cycles never run", "statement": "If some objects form a closed chain of undelayed inputs, no object of the chain (nor any object depending on it without delay) ever appears in the trigger order: the computation either raises or leaves them out; an object that reads its own output with ':-1' makes the computation raise or leaves the object out.", "quantifier": "all parameter dictionaries containing a cycle of any length", "why_tests_cant": "Cycles can have any length and be embedded in any larger graph.", "anchors": ["specula/simul.py: Simul.build_trigger_order, is_leaf, has_delayed_output"]}
{"id": "C05", "title": "The simulation loop computes the synchronous dataflow semantics", "statement": "For every simulation whose trigger order was computed by the library, in every iteration every object that triggers sees, on each undelayed input, the value its producer has at the end of the same iteration and, on each ':-n' input, the value the producer had at the end of the previous iteration. (For a delayed link between two objects of the same trigger index on the same device this requires that the consumer does not look at its inputs in post_trigger and the producer does not change its outputs in prepare_trigger; without that proviso it is false.)", "quantifier": "all object graphs, all object behaviours (arbitrary state machines), all numbers of iterations", "why_tests_cant": "It is a refinement between the in-place, reference-sharing, index-by-index loop and an equational semantics, for every graph and every history.", "anchors": ["specula/simul.py: Simul.run, build_trigger_order", "specula/loop_control.py: LoopControl.iter", "specula/base_processing_obj.py: check_ready, trigger, post_trigger", "specula/connections.py: _InputItem.get"]}
{"id": "C06", "title": "Results do not depend on the order of objects in the parameter file", "statement": "Permuting the objects of a parameter file changes neither whether the trigger order can be computed nor any output of any object at any iteration (with the same proviso as C05 on delayed links inside one trigger index).", "quantifier": "all parameter dictionaries, all permutations of them, all object behaviours, all numbers of iterations", "why_tests_cant": "The number of permutations is factorial; nothing in a test compares histories across permutations.", "anchors": ["specula/simul.py: Simul.build_trigger_order", "specula/loop_control.py: LoopControl.iter"]}
{"id": "C07", "title": "Objects are built after the objects they reference", "statement": "The build order contains every object of the file exactly once, and each object named by a '_ref', '_list_ref' or '_dict_ref' parameter is built before the object that references it, whenever references are not circular.", "quantifier": "all parameter dictionaries with acyclic references", "why_tests_cant": "Depth-first ordering over arbitrary reference graphs.", "anchors": ["specula/simul.py: Simul.build_order, build_objects"]}
{"id": "C08", "title": "Removing an object leaves no dangling input", "statement": "After an object is removed (by a 'remove' entry or during ordering), no input of any remaining object refers to it, every other input reference is preserved in order, and no other parameter changes.", "quantifier": "all parameter dictionaries and all object names", "why_tests_cant": "All combinations of single, list, delayed and aliased input references.", "anchors": ["specula/simul.py: Simul.remove_inputs, combine_params"]}
{"id": "C09", "title": "Combining parameter files never silently redefines an object", "statement": "Combining a parameter file with an additional one either raises or yields a file where: every object not named by an applicable '_override', 'remove' or new entry is unchanged (up to inputs of removed objects); new entries are added; entries carrying an index different from the simulation index have no effect; overriding or removing an unknown object, or redefining an existing one, raises.", "quantifier": "all pairs of parameter dictionaries, all simulation indices", "why_tests_cant": "Quantifies over all names (suffix parsing) and all dictionaries.", "anchors": ["specula/simul.py: Simul.combine_params"]}
{"id": "C10", "title": "Command line overrides change exactly one setting each", "statement": "An override 'obj.par' or 'obj.par.sub' sets exactly that setting to the given value and leaves every other setting of every object unchanged; any other number of dots raises.", "quantifier": "all parameter dictionaries, all override strings and values", "why_tests_cant": "Frame condition over all other keys.", "anchors": ["specula/simul.py: Simul.apply_overrides"]}
{"id": "C11", "title": "Output references parse back to what was written", "statement": "Parsing the text 'alias-object.key:delay' (with alias, key and delay each optional) yields exactly that alias, object, key and delay (default 0) for all names without the separator characters; texts with a repeated separator are rejected.", "quantifier": "all names free of ':', '-', '.', all integer delays", "why_tests_cant": "Infinite set of strings; separators interact with the sign of the delay.", "anchors": ["specula/simul.py: Simul.split_output, output_owner, output_delay"]}
{"id": "C12", "title": "Replay parameter files only reference objects they contain", "statement": "The replay parameters derived from a simulation with a DataStore contain a data source that offers every stored output under its stored name, read from the same directory and format; the DataStore and the owners of stored outputs are gone, all other objects remain with unchanged parameters; an input that is the plain text 'obj.key' of a stored output now reads the data source output holding it, and every other input is unchanged. Hence, if all references to removed objects are of that plain form, every input of every remaining object names an object that is present. (References inside lists, delayed references and unstored outputs of removed objects are left dangling by the code.)", "quantifier": "all parameter dictionaries with a DataStore", "why_tests_cant": "Quantifies over every way a stored signal can be referenced (single, list, delayed).", "anchors": ["specula/simul.py: Simul.build_replay, data_store_to_data_source"]}
{"id": "C13", "title": "Targeted replay contains everything the targets need", "statement": "The parameters built for a targeted replay contain the targets and, for every object they contain, every object it references and, for each of its inputs, either the producing object (when the signal is not stored) or the data source offering that stored signal, to which a plain text input is redirected. The construction always succeeds on well-formed files, feedback loops included. (Files with at most one DataStore; an input list containing a stored signal is truncated by the code.)", "quantifier": "all parameter dictionaries with at most one DataStore, all sets of targets", "why_tests_cant": "Closure property over arbitrary graphs.", "anchors": ["specula/simul.py: Simul.build_targeted_replay, iterate_inputs"]}
{"id": "C14", "title": "Each processing object runs on exactly one process and every remote link is paired", "statement": "With one process per rank, every processing object is created on exactly one process, the one of its target rank (data objects without a target rank on every process); for every configured link whose producer is a processing object exactly one of these holds: both ends are on one process and share a reference, or the producer's process registers a send to the consumer's rank with some tag and the consumer's process registers a receive from the producer's rank with the same tag; nothing else is registered and no process fails. (A link from a data object without target rank makes some process fail; this is shown separately.)", "quantifier": "all parameter dictionaries, all rank assignments, all numbers of processes covering the used ranks", "why_tests_cant": "Quantifies over all placements; an unpaired link deadlocks only in the distributed run.", "anchors": ["specula/simul.py: Simul.build_objects (365-387), connect, connect_objects, computeTag"]}
{"id": "C15", "title": "Distributed runs exchange exactly the messages that are received", "statement": "In a distributed run of N iterations that starts at time 0 with a run time of exactly N steps, with every link going forward (undelayed) or not forward (delayed) in the trigger order and all links on different channels, no interleaving of the processes deadlocks; each link is received exactly once during setup and once per iteration and no message is left over; the value received in iteration k is the one produced in iteration k (undelayed) or k-1 (delayed; for k = 0 the one left by the setup). With a run time that is not a multiple of the step, or a start time other than 0, this fails, and the failures are shown.", "quantifier": "all time steps and iteration counts; all numbers of processes, objects and links; all interleavings of the processes", "why_tests_cant": "Off-by-one errors appear only for particular run-time/time-step/start-time combinations, and show up as deadlocks.", "anchors": ["specula/loop_control.py: LoopControl.start, iter, niters, run", "specula/base_processing_obj.py: send_outputs, send_remote_output, get_all_inputs", "specula/connections.py: _InputItem.receive_new_value"]}
{"id": "C16", "title": "Sender and receiver always agree on the wire format", "statement": "For every remote link whose output, once it has a value, keeps having one: at every message the sender chooses the pickled-object format exactly when the receiver waits for a pickled object and the raw-buffer format exactly when it waits for a raw buffer; after each receive the input has the value and generation time the output had at the corresponding send, and no message is left over. (An output that becomes unset again makes the send fail.)", "quantifier": "all sequences of values of an output (including outputs that are still unset)", "why_tests_cant": "Depends on the whole history of set/unset values at both ends.", "anchors": ["specula/base_processing_obj.py: send_remote_output", "specula/connections.py: _InputItem.receive_new_value, get"]}
{"id": "C17", "title": "Different remote links use different message channels", "statement": "The text hashed into the message tag identifies producer, consumer, output and input when names contain no '%' and no output is called 'None', so tags differ whenever the hash separates the texts modulo 10^6. Distinctness of the tags themselves does not hold in general: for every hash function two links collide, and two references of one input list to the same output always do.", "quantifier": "all pairs of links", "why_tests_cant": "The tag is a hash; a test cannot enumerate link names.", "anchors": ["specula/simul.py: computeTag", "specula/base_processing_obj.py: send_remote_output"]}
{"id": "C18", "title": "Number and times of iterations", "statement": "run(run_time, dt, t0) executes iterations at times t0, t0+dt, t0+2dt, ... for exactly those times smaller than t0+run_time (ceil(run_time/dt) of them) and then ends; a negative run time, or a step <= 0, never ends. The advertised iteration count equals the executed one, and the last-iteration flag is raised exactly in the last iteration, when t0 = 0, the run time is a multiple of the step and the loop object is new (it is wrong otherwise).", "quantifier": "all run times, positive time steps and start times (integer nanoseconds)", "why_tests_cant": "Boundary cases (non-multiples, non-zero start) are infinitely many.", "anchors": ["specula/loop_control.py: LoopControl.run, start, iter, niters"]}
{"id": "C19", "title": "An object is triggered in an iteration iff it has something new to do", "statement": "In each iteration an object is prepared, triggered and post-triggered exactly once, in this order, if it has no inputs, or all its inputs are optional and read as None, or some input value has been generated at the current time (or later); otherwise none of them is called. trigger() or post_trigger() raise unless the last call other than trigger() was a check_ready() that found something new. (An unconnected list input reads as an empty list, not as None, so an object whose only inputs are unconnected optional lists never triggers.)", "quantifier": "all objects, all input configurations (optional, unset, lists), all histories of generation times", "why_tests_cant": "Protocol invariant over all interleavings of refreshed and stale inputs.", "anchors": ["specula/base_processing_obj.py: checkInputTimes, check_ready, trigger, post_trigger", "specula/loop_control.py: LoopControl.iter"]}
{"id": "C20", "title": "A chain of objects runs at the rate of its slowest source", "statement": "An object whose only refreshed inputs come (undelayed) from one producer triggers in exactly the iterations in which that producer refreshes its output; consequently along a chain of any length everything triggers exactly when the source does; an object whose configured inputs are all delayed never triggers (when objects stamp their outputs with the current time and start unstamped).", "quantifier": "all chain lengths, all refresh patterns of the source", "why_tests_cant": "Induction on chain length and iterations.", "anchors": ["specula/base_processing_obj.py: checkInputTimes", "specula/loop_control.py: LoopControl.iter"]}
{"id": "C21", "title": "List inputs deliver the connected outputs in configured order", "statement": "The list an object receives on a list input is the concatenation, in the order of the connections, of the connected outputs with nested lists flattened; a single-value input delivers its only element, delivers nothing if it is optional and unconnected, and raises if it is required and unconnected or if several elements are connected; values of the wrong type are refused at connection time.", "quantifier": "all connection sequences, all nesting depths", "why_tests_cant": "Arbitrary nesting and numbers of connections.", "anchors": ["specula/connections.py: InputList.append, set, get, InputValue.get, _InputItem.__init__", "specula/lib/utils.py: flatten"]}
{"id": "C22", "title": "Detector exposures tile the time axis", "statement": "A detector with integration time dt (a multiple of the loop step) and start time s (a multiple of the loop step), whose input is renewed at every step, emits a frame exactly at the last step of each window [s+k dt, s+(k+1) dt); each frame is the sum over exactly the dt/time_step steps of its window of the incoming intensity times the step duration and bandwidth; no step is lost or counted twice. With a start time that is not a multiple of the loop step it never emits a frame.", "quantifier": "all integration times that are multiples of the step, all aligned start times, all input sequences, all run lengths", "why_tests_cant": "Off-by-one in the firing condition appears only at particular times; quantifies over all step counts.", "anchors": ["specula/processing_objects/ccd.py: CCD.trigger_code, __init__", "specula/data_objects/intensity.py: Intensity.sum"]}
{"id": "C23", "title": "Windowed integration outputs the mean over each window", "statement": "The windowed integrator outputs, at the last step of each window of length dt counted from an aligned start time, the mean of the inputs of that window, and zero at the other steps; the output counts as refreshed at every step, or only at the last step of each window if so requested.", "quantifier": "all window lengths that are multiples of the step, aligned start times, input sequences", "why_tests_cant": "As above.", "anchors": ["specula/processing_objects/windowed_integration.py: WindowedIntegration.trigger_code"]}
{"id": "C24", "title": "Buffered data is complete, ordered and without duplicates", "statement": "Concatenating everything the data buffer emits for an input (including the final emission) gives exactly the sequence of fresh samples of that input, in order, each once; every emission but the last covers exactly buffer_size triggers.", "quantifier": "all buffer sizes >= 1, all patterns of fresh/stale inputs, all run lengths", "why_tests_cant": "Histories are unbounded and several inputs refresh independently.", "anchors": ["specula/processing_objects/data_buffer.py: DataBuffer.trigger_code, emit_buffered_data, reset_buffers, finalize"]}
{"id": "C25", "title": "Stored telemetry is exactly the (downsampled) history", "statement": "At the end of a run without splitting the data store has saved, for each input, exactly the samples produced at or after the start time, taking one sample every N received (the first included), each with the time it was produced, in strictly increasing time order; when N is not 1 and divides the number of samples received, the additional trigger at the end also saves the sample of the last iteration. With splitting into chunks of S > 1 triggers, the chunks partition the history of the complete chunks: this is the whole history when S divides the number of triggers or that number plus one, and otherwise the samples after the last complete chunk are not saved.", "quantifier": "all run lengths, downsampling factors, start times, split sizes, refresh patterns", "why_tests_cant": "Depends on the whole history and on the extra trigger done at the end.", "anchors": ["specula/processing_objects/data_store.py: DataStore.trigger_code, _should_store_input, finalize, save"]}
{"id": "C26", "title": "Replaying stored data reproduces the signal", "statement": "If a simulation's output is stored and then read back by a data source driven at times that include the stored ones, the data source's output has the stored value and generation time at every stored time and keeps the previous one in between, so consumers observe the same refreshes. This holds for FITS files for all times below 2^64 ns and for pickle files for all times that have at most 53 (double precision) or 24 (single precision) significant bits; a time with more bits is rounded in a pickle file and its sample is not found when replaying.", "quantifier": "all histories, all times, both file formats, both precisions", "why_tests_cant": "Quantifies over all histories; time stamps are written to file in a finite precision format.", "anchors": ["specula/processing_objects/data_store.py: save_fits, save_pickle", "specula/processing_objects/data_source.py: load_fits, load_pickle, trigger_code"]}
{"id": "C27", "title": "Time conversion is exact to one nanosecond", "statement": "Converting to internal ticks a duration given in seconds that is a whole number n of nanoseconds (below 2^52) gives n or n-1 ticks, never more; it gives n whenever the floating point number of the duration is not below n ns, in particular for multiples of 1/512 s. Converting ticks to seconds and back gives the same number or one less. There are durations for which the result is n-1 (65 and 130 microseconds), and then a detector whose integration time is a multiple of the step is rejected.", "quantifier": "all durations in the usable range, with IEEE double arithmetic", "why_tests_cant": "Rounding of binary floating point fails only for particular values.", "anchors": ["specula/base_time_obj.py: BaseTimeObj.seconds_to_t, t_to_seconds"]}
{"id": "C28", "title": "Control delay shifts the commands by the configured time", "statement": "With an integer delay d the controller's output at step n is the filter output of step n-d (zero before the start); with a fractional delay it is the linear interpolation between the two neighbouring integer delays; the result depends on nothing older.", "quantifier": "all delays >= 0, all input sequences, all steps", "why_tests_cant": "History property over unbounded sequences and all delays.", "anchors": ["specula/processing_objects/base_filter.py: BaseFilter (buffer, trigger/post_trigger)"]}
{"id": "C29", "title": "The IIR controller computes its difference equation", "statement": "For every mode the IIR filter output satisfies den[n] y(t) = sum num u(t-i) - sum den y(t-i) with zero initial conditions; it is linear in its input, and with the integrator coefficients equals the leaky integral of the input times the gain.", "quantifier": "all filter orders, coefficient vectors, numbers of modes and input sequences", "why_tests_cant": "Needs induction on time; coefficient orders and buffer rolls are easy to get off by one.", "anchors": ["specula/processing_objects/iir_filter.py: IirFilter.trigger_code", "specula/processing_objects/integrator.py", "specula/data_objects/iir_filter_data.py: from_gain_and_ff"]}
{"id": "C30", "title": "State-space and IIR integrators are the same controller", "statement": "The state-space filter built by from_integrator (with output_uses_new_state) and the IIR filter built by from_gain_and_ff with the same gains and forgetting factors produce identical outputs for every input sequence and gain modulation; without output_uses_new_state it is exactly one step late; the block-diagonal state space evolves each filter independently.", "quantifier": "all gains, forgetting factors, numbers of modes, input sequences", "why_tests_cant": "Equivalence of two state machines for all inputs.", "anchors": ["specula/data_objects/ssr_filter_data.py: from_integrator, _build_block_diagonal", "specula/processing_objects/ssr_filter.py", "specula/data_objects/iir_filter_data.py: from_gain_and_ff"]}
{"id": "C31", "title": "Setting filter gains rescales the filter and nothing else", "statement": "After any sequence of set_gain calls on a filter whose leading numerator coefficient was non-zero, the reported gain is the last finite value given to it (the original one if none was), it equals the leading coefficient, and the filter's output on every input is the original one scaled by gain/original gain; coefficients given in the first columns are aligned to the last ones. (For filters whose leading coefficient is zero a missing entry erases the numerator: the code does not keep them.)", "quantifier": "all coefficient matrices and gain vectors (any lengths)", "why_tests_cant": "All shapes (shorter vectors, zero gains, non-finite entries).", "anchors": ["specula/data_objects/iir_filter_data.py: IirFilterData.set_gain, set_num"]}
{"id": "C32", "title": "Delay transfer function matches the simulated delay", "statement": "The transfer function returned by discrete_delay_tf(d), run as an IIR filter, delays any sequence exactly as the controller's delay line does for the same d.", "quantifier": "all delays >= 0 and all input sequences", "why_tests_cant": "Two independent implementations compared on all sequences.", "anchors": ["specula/data_objects/iir_filter_data.py: discrete_delay_tf", "specula/processing_objects/base_filter.py"]}
{"id": "C33", "title": "Implicit and explicit pseudo-open-loop reconstruction agree", "statement": "For all matrices, in every iteration with fresh slopes the implicit pseudo-open-loop reconstructor outputs the same modes as the explicit one given the same interaction, reconstruction and projection matrices, namely P R (s + D c) - c; over a whole run in which the slopes are always fresh the two output sequences coincide. When P R is a left inverse of D and the slopes are D times the residual, the output is that residual. The two classes differ only when slopes are not fresh: the implicit one still updates its output from new commands, the explicit one does not.", "quantifier": "all matrices and vectors of compatible sizes", "why_tests_cant": "Algebraic identity for all sizes and values.", "anchors": ["specula/processing_objects/modalrec.py: Modalrec.trigger_code", "specula/processing_objects/modalrec_implicit_polc.py"]}
{"id": "C34", "title": "Push-pull calibration recovers the interaction matrix", "statement": "Driving a linear sensor with the push-pull sequence generated by the library and feeding slopes and commands to the interaction matrix calibrator yields, for every mode from first_mode on, exactly the response of the sensor to that mode, for every amplitude vector without zeros and every pattern whose non-zero elements have inverses adding up to zero (such as push and pull by the same amount), also with a constant slope offset; with any other pattern the offset times the mean inverse poke is left in the matrix. Iterations without fresh slopes change nothing.", "quantifier": "all mode counts, amplitudes, patterns, cycle counts, linear sensors", "why_tests_cant": "End-to-end over three components, all sizes.", "anchors": ["specula/lib/modal_pushpull_signal.py: modal_pushpull_signal", "specula/processing_objects/push_pull_generator.py", "specula/processing_objects/im_calibrator.py: ImCalibrator.trigger_code"]}
{"id": "C35", "title": "Optimised gains respect the stability bound", "statement": "In every run in which an optimisation never happens on the very first sample, every gain vector set in the filter by the gain optimiser is component-wise not larger than the maximum allowed gain, whatever the telemetry; the optimum is the candidate with the least cost; with limited increments the new gain is the safety factor times the point at the configured fraction of the way from the previous gain to the optimum, so repeated optimisation contracts towards a fixed value; positive data give positive gains.", "quantifier": "all telemetry histories, safety factors, previous gains", "why_tests_cant": "All telemetry.", "anchors": ["specula/processing_objects/gain_optimizer.py: _optimize_gains"]}
{"id": "C36", "title": "Optical gain estimate is always usable", "statement": "The limited optical gain published never exceeds 1, changes only in iterations where both demodulated inputs are fresh and the commanded amplitude is not negligible, decreases when the measured/commanded ratio is below one and increases when above, and in a loop whose measurement is compensated by the estimate it converges to the true optical gain.", "quantifier": "all input histories", "why_tests_cant": "History property.", "anchors": ["specula/processing_objects/optical_gain_estimator.py: trigger_code"]}
{"id": "C37", "title": "Rebinning conserves the mean; detector resampling conserves total flux", "statement": "rebin2d averages blocks exactly when the factors are integers and the requested columns do not exceed the rows of the input (wide frames are otherwise rejected), and preserves the mean. toccd returns an image of the requested shape whose pixels are the area-weighted resampling of the input, scaled to the requested total, for the sizes whose floating point sampling step does not lose a sample (all sizes whose step is exact, rounded up, or rounded down by a relative error of at most 2^-54); for an output of 49 pixels from 10 it raises. set_total is ignored when the shape does not change.", "quantifier": "all image sizes, contents, integer factors", "why_tests_cant": "All shapes, including non-square ones.", "anchors": ["specula/lib/rebin.py: rebin2d", "specula/lib/toccd.py: toccd"]}
{"id": "C38", "title": "Pyramid slopes do not depend on the source brightness", "statement": "For a table of pupils without padding and some light above the threshold, the pyramid slopes are the differences between pupils over the mean light per sub-aperture: multiplying all pixels by a positive constant (threshold zero) does not change them, they vanish where the four pupils are equal, renaming the pupils by a quarter of a turn rotates them, and they are bounded by the light ratio. Intensity signals have mean one. Without light the slopes are not finite, shlike cannot be used, a negative norm_factor is undone and padded tables are rejected.", "quantifier": "all pixel frames, all pupil geometries", "why_tests_cant": "For all frames and scale factors.", "anchors": ["specula/processing_objects/pyr_slopec.py: PyrSlopec.trigger_code"]}
{"id": "C39", "title": "Shack-Hartmann slopes are centroids", "statement": "When there is light above threshold, every sub-aperture with at least one thousandth of the mean weighted light has as slopes the coordinates of its centre of light, and the others have zero; all slopes are at most 1-1/n in absolute value for n x n pixels, do not change when the frame is multiplied by a positive constant (no threshold), are zero for mirror-symmetric spots and move by 2/n when the spot moves by one pixel. A completely dark frame gives slopes that are not finite.", "quantifier": "all sub-aperture sizes, all non-negative frames", "why_tests_cant": "For all frames.", "anchors": ["specula/processing_objects/sh_slopec.py: ShSlopec.trigger_code"]}
{"id": "C40", "title": "Slicing and inserting are inverse selections", "statement": "The slicer outputs the selected entries in order, for lists of indices (negative ones from the end) and for every slice with positive or negative step; the inserter writes the selected input entries into the selected positions and leaves the rest unchanged; slicing the output at the positions of a pair returns what was inserted when positions are distinct and not overwritten by a later pair; although the output vector is kept, it depends only on the last input. The size allocated by the slicer's constructor is right for bounds in order, but a slice that ends counting from the end ([a:-b]) raises.", "quantifier": "all vectors, index sets, slices", "why_tests_cant": "All index sets including strided slices.", "anchors": ["specula/processing_objects/base_slicer.py", "specula/processing_objects/base_inserter.py"]}
{"id": "C41", "title": "Deformable mirror shape is linear in the command", "statement": "Without a matrix from modes to actuators, a DM command that has a value for every selected mode produces on each valid pixel the mirror's sign times the sum of commands times selected influence functions and zero outside, whatever commands of whatever lengths came before; the shape is linear in the command; entries beyond nmodes are ignored. Commands of constant but shorter length behave as padded with zeros, while a command shorter than a previous one keeps the end of the previous one. With a matrix the shape is that of the actuator commands, and longer commands raise. start_mode and nmodes select a range of influence functions, idx_modes the listed ones.", "quantifier": "all command histories, command lengths, influence functions", "why_tests_cant": "History dependence (shorter commands after longer ones).", "anchors": ["specula/processing_objects/dm.py: DM.trigger_code"]}
{"id": "C42", "title": "Combining electric fields", "statement": "Geometric propagation through any list of layers gives at the pupil the product of the amplitudes and the sum of the phases of the layers as they are seen (centre cut, or interpolated), in either direction and any order, whatever finite values the output held before; at every wavelength the complex field is the product of the complex fields and the intensity does not depend on phases. A value that is not finite stays in the output for ever (reset multiplies by zero), a layer one or two pixels smaller than the pupil is accepted and its last pixel used everywhere, and separate outputs per layer raise as soon as a common layer exists. The combinator, for square inputs of equal shape, adds phases, multiplies amplitudes and sums the flux of its inputs; inputs that are not square pass the setup and raise at each trigger.", "quantifier": "all numbers and orders of elements, all fields", "why_tests_cant": "All permutations and sizes.", "anchors": ["specula/data_objects/electric_field.py: product", "specula/processing_objects/electric_field_combinator.py: trigger_code"]}
{"id": "C43", "title": "Frozen-flow layers are cut from the right place", "statement": "With wind, time steps and extra time not negative and a screen longer than the layer plus the extra offset, no trigger of any history raises and all pixels taken lie inside the screen; for wind along an axis each layer pixel is the screen, turned by quarters, interpolated at pixel plus position. The position is wind times elapsed time however the time is divided, until the end of the screen; with constant steps it is periodic and jumps back to zero. Positions slightly below zero raise. Layers of equal outer scale use disjoint strips inside existing square screens. With the pupil at the centre, layers are large enough for every source within half the field of view; with the pupil elsewhere they can be too small.", "quantifier": "all step counts, wind speeds and directions, screen sizes", "why_tests_cant": "Unbounded number of steps.", "anchors": ["specula/processing_objects/atmo_evolution.py: compute, trigger_code"]}
{"id": "C44", "title": "Zernike index maps are a bijection", "statement": "For every Noll index j >= 1 for which 8j+1 is exact in the floating point type used, getZernike(j) is defined and its radial degree and angular factor (none, cosine m, sine m) is a valid one; different indices give different modes, every valid mode of a radial degree n has an index in n(n+1)/2 < j <= (n+1)(n+2)/2, and the modes are in Noll's order, although the radial degree is computed with a rounded square root.", "quantifier": "all indices j >= 1", "why_tests_cant": "Infinite index set; square-root based formula.", "anchors": ["specula/lib/zernike_generator.py: ZernikeGenerator.degree, radial_order"]}
{"id": "C45", "title": "Encircled energy curve is a distribution function", "statement": "The flux of an image is the sum over rings of mean value times number of pixels; entry t of the encircled energy is the flux of the pixels closer to the centre than the end of ring t; for a non-negative image with some flux the normalised curve is non-decreasing, between 0 and 1 and ends at 1, and so is its value at any queried distance, for any image shape and centre. Without pixel counts a uniform image gives the area inside the ring border. When the profile starts above half of its maximum and drops below, the FWHM is twice a distance where the interpolated profile is half of the maximum.", "quantifier": "all images, centres and bin counts", "why_tests_cant": "All images.", "anchors": ["specula/lib/radial_profile.py"]}
{"id": "C46", "title": "Long exposure PSF is the mean of the instantaneous PSFs", "statement": "At the end of a run the integrated PSF and Strehl ratio are the arithmetic means, and the standard deviation that, of the instantaneous ones at times not earlier than the start time. The instantaneous PSF is non-negative with unit total; the Strehl ratio is the square modulus of the summed field over the squared summed amplitude, lies in [0, 1] as long as the amplitude is the one of the first trigger, is 1 for a constant phase, and is not changed by whole wavelengths; a tilt of a and b waves moves the PSF by a and b pixels.", "quantifier": "all histories and start times", "why_tests_cant": "History property.", "anchors": ["specula/processing_objects/psf.py: PSF.trigger_code, post_trigger, finalize", "specula/lib/calc_psf.py: calc_psf"]}
{"id": "C47", "title": "Dark frames are averages over the requested number of frames", "statement": "When a dark of n frames is requested while none is being acquired and no further dark, frame-count or load request arrives until it completes (resets may), the dark published with the time of the last frame is the mean of exactly n frames (the one present at the request and the n-1 that follow), and the dark is not replaced before. At every trigger the output is the frame minus the dark held before that trigger. Requests during an acquisition do disturb it: a second request counts frames again without clearing the sum, and a new frame count divides the old sum by the new count.", "quantifier": "all histories of frames and requests", "why_tests_cant": "Interleavings of requests and frames.", "anchors": ["specula/processing_objects/dynamic_dark_calibrator.py: trigger_code, prepare_trigger"]}
{"id": "C48", "title": "Saved data objects restore to equal objects", "statement": "Saving a data object and restoring it gives back its content: electric fields, intensities, pixels, influence functions and inverses, sub-aperture data and spatio-temporal arrays (any time axis) whole; layers, pupil stops, mode-to-command matrices, reconstruction matrices, pupil data, slopes, sources at finite height, laser launch telescopes and IIR filters with the exceptions listed (fields that are not written or not read). Values must survive the header text and the conversion to the global precision.", "quantifier": "all contents, sizes and options of the data objects listed; all roundings on the way", "why_tests_cant": "All contents; optional fields interact.", "anchors": ["specula/data_objects/*.py: save, restore, get_fits_header, from_header"]}
{"id": "C49", "title": "Calibration file names identify the object", "statement": "For a tag that is not an absolute path, the calibration file of a data type is root/directory/tag.fits: two (type, tag) requests give the same path exactly when the two types have the same directory and the tags are equal up to a final .fits, so writing the extension or not gives the same file. An absolute tag ignores the root and the type, and the types that share a directory (IFunc/IFuncInv, Source/TimeHistory, the two kinds of filter data) share their files.", "quantifier": "all roots, all data types of the table, all tags", "why_tests_cant": "All strings.", "anchors": ["specula/calib_manager.py: CalibManager.filename, root_subdir"]}
{"id": "C50", "title": "Class names resolve to the module that defines them", "statement": "A class name is converted to a module name exactly when it contains a capital letter. Names made of capitalised words (a capital and at least one lowercase letter each) become those words in lowercase joined by underscores, so different such names have different modules; alphanumeric names starting with a capital can only share a module if they differ in capitals only (CCD and Ccd do). The class is taken from the first package that has that module, and only from it.", "quantifier": "all strings, all lists of additional packages, all contents of the packages", "why_tests_cant": "All strings.", "anchors": ["specula/lib/utils.py: camelcase_to_snakecase, import_class"]}
{"id": "C51", "title": "Slope layout, reference slopes and slope filter", "statement": "Whatever the layout (interleaved or halves), x and y slopes never overlap, are read back as set and, for even sizes or the constructor's halves, cover the whole vector. Reference slopes are subtracted component by component even across layouts and before anything else, so slopes equal to the reference give zeros through every stage. With both filter matrices as slopes by modes and inverse of each other, the filtered slopes contain none of the modes, filtering twice equals filtering once, and a combination of the modes becomes zero. A reconstruction matrix with the documented axes (modes by slopes) makes the filter raise.", "quantifier": "all sizes, layouts, slopes, references and filter matrices", "why_tests_cant": "All sizes (odd ones differ) and all matrices.", "anchors": ["specula/data_objects/slopes.py: Slopes.__init__, resize, xslopes, yslopes", "specula/processing_objects/slopec.py: Slopec.post_trigger"]}
{"id": "C52", "title": "Rotating slopes is a rotation", "statement": "Slopes.rotate multiplies each (x, y) pair by the counterclockwise rotation matrix of the angle in degrees and then flips the requested axes; it preserves the length of every slope, rotations without flips add their angles and are undone by the opposite angle; with flips they do not add.", "quantifier": "all angles, flips and slopes", "why_tests_cant": "Trigonometric identity over the reals, including the origin and all quadrants of arctan2.", "anchors": ["specula/data_objects/slopes.py: Slopes.rotate"]}
{"id": "C53", "title": "Interpolation of layers is exact, bounded and inside the layer", "statement": "For any coordinates the interpolated value lies between the extreme values of the layer and depends on its pixels only, linearly; at a pixel it is that pixel and planes are interpolated exactly. A source that is accepted, at infinity or above an unshifted and unrotated square layer, sees only points inside the layer, around the position of the beam and scaled by the cone effect and the magnification; layers at or above the source and sources outside the field of view are refused. The direct cut used on axis is the interpolation on axis if layer and pupil have the same parity and half a pixel away otherwise; the shift of a layer is not part of the check of the field of view.", "quantifier": "all layer sizes, coordinates, rotations, source positions and heights, magnifications", "why_tests_cant": "Continuous family of geometries; border cases of the grid.", "anchors": ["specula/lib/interp2d.py: Interp2D", "specula/lib/make_xy.py: make_xy", "specula/processing_objects/atmo_propagation.py: layer_interpolator, setup_interpolators"]}
{"id": "C54", "title": "PSF sampling honours the requested pixel size", "statement": "When a pixel size is requested, the sampling chosen corresponds to a whole image size and no other whole size has a pixel size closer to the request; pixels larger than lambda/D are refused. The image produced always has an even number of pixels, so the pixel size reported is the one of the image exactly when the sampling asks for an even number of pixels; with the default sampling, pupils of 4k+1 pixels do not fit the image and the PSF raises.", "quantifier": "all pupil sizes, wavelengths and requested pixel sizes or samplings", "why_tests_cant": "Search window around a real number; all sizes.", "anchors": ["specula/lib/calc_psf.py: calc_psf_geometry, calc_psf_sampling", "specula/processing_objects/psf.py: PSF.setup"]}
{"id": "C55", "title": "The stability test of a filter decides the behaviour of the simulated loop", "statement": "Take the loop of one mode in which the residual is the disturbance minus the command of the iteration before and the controller is an IIR filter with as many numerator as denominator coefficients and a delay of d frames. Its residuals obey the recurrence of closed_loop_denominator for a plant of d+1 frames of delay. If is_stable is true, a vanishing disturbance gives vanishing residuals, a bounded one bounded residuals and commands, and a filter with a pole in 1 follows every converging disturbance; if a root of modulus at least 1 that is not a pole of the controller exists, a single kick is never forgotten. max_stable_gain returns 0 or a tested gain that is stable together with all smaller tested gains, so set_gain of a non-zero result gives a settling loop. With coefficient lists of different lengths the test can accept a diverging loop.", "quantifier": "all filters, delays (also fractional), disturbances, gain grids", "why_tests_cant": "Asymptotic statement over infinite runs and all coefficients.", "anchors": ["specula/data_objects/iir_filter_data.py: closed_loop_denominator, is_stable, max_stable_gain, discrete_delay_tf", "specula/processing_objects/iir_filter.py: trigger_code", "specula/processing_objects/base_filter.py: post_trigger"]}
{"id": "C56", "title": "Multirate reconstruction splits the full reconstruction by sensor", "statement": "At each trigger the multirate reconstructor uses the matrix given for exactly the set of sensors that have a new measurement: the output of a sensor is that matrix times its measurements placed at its own columns (zero without a new measurement), and the outputs add up to the matrix times the full vector with zeros for the missing sensors. Without any new measurement all outputs are zero; a set of sensors without a matrix raises. Duplicated masks and matrices of the wrong size are refused before running.", "quantifier": "all numbers and sizes of sensors, matrices, masks and measurement times", "why_tests_cant": "All partitions of the columns and all subsets of sensors.", "anchors": ["specula/processing_objects/modalrec_multirate.py: ModalrecMultirate"]}
{"id": "C57", "title": "Fusion of fast and slow sensors is unbiased", "statement": "The controller input of the complementary filter is the increment of the fast measurement plus the tracking gain times the weighted measurements, where each slow sensor counts at its own frames only and with its downsampling factor. Summed over n frames this is the last fast measurement plus the tracking gain times the weighted sums; for constant measurements and any number M of frames divisible by all factors it is the fast measurement plus M times the tracking gain times the barycentre with weights normalised to one, and the command of an integrator is its gain times that sum. The synchronisation check accepts a frame exactly when the new slow measurements are those due.", "quantifier": "all tracking gains, weights, downsampling factors, measurement sequences and run lengths", "why_tests_cant": "All run lengths and all combinations of rates.", "anchors": ["specula/processing_objects/multirate_complementary_filter.py: MultirateComplementaryFilter"]}
{"id": "C58", "title": "BaseOperation makes one elementwise operation without memory", "statement": "A BaseOperation applies exactly one operation at every trigger: the constant multiplication (constant_div takes precedence over constant_mul), else the constant addition (constant_sub over constant_sum), else constant_max (a lower bound), else constant_min (an upper bound), else concatenation, else mul, div, sum, sub in this order. The output is that operation on corresponding elements of the current inputs; a shorter or remapped second input of constant size is filled with ones for a division and zeros otherwise. Missing second inputs and missing operations raise.", "quantifier": "all constants, vector sizes, input values and run lengths", "why_tests_cant": "All sizes, all sequences of inputs and the interplay of all options.", "anchors": ["specula/processing_objects/base_operation.py: BaseOperation"]}
{"id": "C59", "title": "Commands of several loops are assembled without loss or overlap", "statement": "MirrorCommandsCombinator sends every high order command to exactly one place: the first mirror gets its low orders, focus and high orders plus the offloaded low orders of the third and the reconstructed petals, the second its high orders, the third its low and high orders. LinearCombination takes tip and tilt from the natural stars, focus from its own loop, corrects and replaces the plate scale elements, and appends lift; it accepts exactly the number of inputs it uses.", "quantifier": "all sizes, gains, matrices and command values", "why_tests_cant": "All sizes of the blocks.", "anchors": ["specula/processing_objects/mirror_commands_combinator.py: MirrorCommandsCombinator", "specula/processing_objects/linear_combination.py: LinearCombination"]}
{"id": "C60", "title": "Signal generators follow their schedules, histories and waveforms", "statement": "A ScheduleGenerator outputs at each time the entry of the interval that contains it: an entry is never applied late, and early only within the rounding of times to the working precision; every group member gets the value of its group, and inconsistent lengths are refused. A TimeHistoryGenerator outputs the rows one after the other and then keeps the last one. The waves are bounded by the amplitude around slope and offset and have the given period. The scaled random amplitudes are zero for the first forced modes, follow the law in the radial order of the mode and have exactly the requested total rms.", "quantifier": "all schedules, group sizes, times below 2^53 ns, precisions, histories, numbers of modes", "why_tests_cant": "All times, all schedules and all rounding cases.", "anchors": ["specula/processing_objects/schedule_generator.py: ScheduleGenerator", "specula/processing_objects/time_history_generator.py: TimeHistoryGenerator", "specula/processing_objects/wave_generator.py: WaveGenerator", "specula/processing_objects/random_generator.py: _generate_scaled_amps"]}
{"id": "C61", "title": "Demodulated amplitudes are those of the carrier, block by block", "statement": "The amplitude found by demodulate_signal scales with the signal, obeys the triangle inequality, and is not changed by an offset or, with cumulated=True, by a ramp. For a sine wave over whole periods the single pass amplitude differs from the true one by at most the phase of one step, and amplitude and phase are exact if the last sample equals the first. A Demodulator with an interval of N steps gives an output every N steps, computed from the N inputs of that block only, and marked with the time of its last input.", "quantifier": "all signals, lengths, frequencies, phases and run lengths", "why_tests_cant": "All signals and all numbers of blocks.", "anchors": ["specula/lib/demodulate_signal.py: demodulate_signal", "specula/processing_objects/demodulator.py: Demodulator.trigger_code"]}
{"id": "C62", "title": "The optical gain estimate converges to the true gain", "statement": "OpticalGainEstimator changes its estimate only when both inputs are new and the command is not negligible; its output is the estimate limited to one. In a loop where the measured ratio is the true gain divided by the estimate, each update multiplies the error by one minus the integrator gain, so for gains in (0, 1] the estimate converges to the true gain.", "quantifier": "all gains, initial estimates, commands and numbers of updates", "why_tests_cant": "Convergence is about an unbounded number of updates.", "anchors": ["specula/processing_objects/optical_gain_estimator.py: OpticalGainEstimator.trigger_code"]}
{"id": "C63", "title": "Infinite phase screens are blown past the pupil as one fixed screen", "statement": "For AtmoInfiniteEvolution with the wind along an axis there is one endless screen, depending only on the initial screen and the random numbers and not on wind speeds or time steps, such that at every trigger the layer is that screen displaced by the path of the wind (plus the extra time at the present speed), linearly interpolated between neighbouring lines and scaled. For any directions the lines added along an axis and the fraction kept always make the whole displacement along it. The scaling is the seeing to the power 5/6.", "quantifier": "all screens, sizes, wind speed histories that never move the screen back, numbers of triggers, four axis directions", "why_tests_cant": "The screen is only visible through all triggers of a run of any length, and the claim compares runs with different winds.", "anchors": ["specula/processing_objects/atmo_infinite_evolution.py: AtmoInfiniteEvolution._process_propagation_direction", "specula/data_objects/infinite_phase_screen.py: InfinitePhaseScreen.add_line"]}
{"id": "C64", "title": "Lines added on opposite sides of an infinite screen follow the same law", "statement": "For every screen size, the stencil used to add lines at the end is the stencil used at the beginning turned by 180 degrees, in the order matching the flipped matrix: the deterministic part of a line added at one side equals, mirrored, what would be added on the other side of the turned screen. The whole neighbouring line is part of the stencil, on both axes and both sides.", "quantifier": "all screen sizes, matrices and screens", "why_tests_cant": "All sizes of the stencil.", "anchors": ["specula/data_objects/infinite_phase_screen.py: InfinitePhaseScreen.set_stencil_coords, setup, get_new_line"]}
{"id": "C65", "title": "Phase unwrapping of modal analysis recovers the phase without its mean", "statement": "When ModalAnalysis has a wavelength, the least squares unwrapping of a phase known modulo whole turns returns the true phase minus its mean, provided neighbouring pixels differ by less than half a turn and the second vertical differences of the phase vanish on the first and last columns. For any input the result has zero mean, does not change when whole turns are added to any pixels, and solves the discrete Poisson equation of the code's right hand side exactly up to its mean. Without the condition on the columns the phase is not recovered.", "quantifier": "all array sizes of at least 2 x 2 and all phases", "why_tests_cant": "All sizes and phases; tests try a few smooth phases with a tolerance.", "anchors": ["specula/processing_objects/modal_analysis.py: ModalAnalysis.unwrap_ls"]}
{"id": "C66", "title": "Phase flattening removes exactly the piston of the illuminated pixels", "statement": "After PhaseFlattening the mean phase over the pixels with positive amplitude is zero; these pixels lose the same number, all other pixels, the amplitude and S0 are passed on unchanged. A piston of the illuminated pixels has no effect on the output, a second flattening changes nothing, and a field with no illuminated pixel passes unchanged.", "quantifier": "all amplitudes and phases", "why_tests_cant": "All fields.", "anchors": ["specula/processing_objects/phase_flattening.py: PhaseFlattening.trigger_code"]}
{"id": "C67", "title": "Modal analysis of a mirror's phase gives back its commands", "statement": "ModalAnalysis with a right inverse of the influence functions of a mirror returns, for the phase the mirror makes, sign times the last command for every commanded mode and zero for modes that are not commanded, also when cut to fewer modes; with a matrix from modes to actuators it returns the actuator commands. The analysis is linear. A trigger always fails when only the list of fields is connected, and when nmodes does not match the modes of an inverse that was not cut.", "quantifier": "all mirrors, inverses, commands and states", "why_tests_cant": "All sizes, mode selections and command histories.", "anchors": ["specula/processing_objects/modal_analysis.py: ModalAnalysis", "specula/processing_objects/dm.py: DM.trigger_code", "specula/data_objects/ifunc_inv.py: cut_modes"]}
{"id": "C68", "title": "MMSE reconstructor is optimal", "statement": "compute_mmse_reconstructor returns the linear reconstructor with the smallest mean square error, for every mode and combination of modes, for a linear sensor with the given covariances of the modes and of the noise (positive definite), and no other reconstructor is as good. Covariances given as inverses give the same matrix; one variance for each sensor is the covariance with that variance on the slopes of the sensor, when the slopes divide evenly among the sensors. The covariances must be diagonal or have some correlation of at least 1e-10.", "quantifier": "all interaction matrices, covariances and numbers of sensors", "why_tests_cant": "All matrices and all competing reconstructors.", "anchors": ["specula/lib/mmse_reconstructor.py: compute_mmse_reconstructor"]}
{"id": "C69", "title": "Calibration of several sensors, and reconstruction with the result", "statement": "MultiImCalibrator, fed with slopes of linear sensors and at most one poke in each iteration (repeated in any number of the command vectors), ends with the response of each sensor for the poked modes and zero for the other modes, when the inverses of the amplitudes of each mode add up to zero or the sensors have no offset; the full matrix has the sensors one below the other. A pseudo-inverse of it applied by MVM to the slopes of all sensors gives back the commands when the sensors together distinguish the modes. Intmat.build_from_slopes gives the same matrix. Files are written where the constructor checked only for an absolute data_dir.", "quantifier": "all numbers of sensors, slopes, modes, all responses and poke sequences", "why_tests_cant": "All sizes, sequences and responses, and the whole chain from calibration to reconstruction.", "anchors": ["specula/processing_objects/multi_im_calibrator.py: MultiImCalibrator", "specula/data_objects/intmat.py: build_from_slopes, generate_rec", "specula/processing_objects/mvm.py: MVM"]}
{"id": "C70", "title": "Changing the size of an interaction matrix keeps its content", "statement": "set_nslopes and set_nmodes keep every element that remains, put zeros in the new ones, and growing then cutting back gives the same matrix; reduce_size and reduce_slopes remove exactly the given number of last modes or slopes, set_start_mode the first modes; each of the three refuses to remove everything.", "quantifier": "all matrices and sizes", "why_tests_cant": "All sizes.", "anchors": ["specula/data_objects/intmat.py: Intmat.set_nmodes, set_nslopes, reduce_size, reduce_slopes, set_start_mode"]}
{"id": "C71", "title": "Interpolating an electric field does not change what the phase is inside the pupil", "statement": "EFInterpolator extends the phase by one pixel around the mask before interpolating. The value given to every such pixel is defined (never NaN); it is the same constant when the phase is constant on the mask; it lies on the same plane when the phase is a plane on the mask and each neighbour in the mask has a second pixel behind it; it is linear in the phase and does not depend on the phase outside the mask. Consequently an output pixel whose sampled position has only mask pixels closer than one pixel is the plain interpolation of the input; a piston (a tilt) is exact where these pixels are in the mask or next to it. With amplitudes 0 and 1, at every output pixel that is lit a piston is kept within 9 per cent (not exactly: a lit pixel can use one pixel that is diagonal to the mask and zero). The amplitude stays 0 or 1, or within the range of the input. Repeated calls give what a new interpolator would give as long as the mask stays the same; if it changes, the edges of the first mask are used and lit pixels can lose their phase.", "quantifier": "for all sizes, masks, thresholds, phases, shifts, rotations, magnifications, output pixels and sequences of fields", "why_tests_cant": "The set of masks and sampled positions is unbounded; tests look at one circular pupil and a few resolutions, not at every lit pixel of every mask.", "anchors": ["specula/lib/extrapolation_2d.py:11", "specula/lib/extrapolation_2d.py:132", "specula/lib/extrapolation_2d.py:184", "specula/lib/extrapolation_2d.py:379", "specula/lib/interp2d.py:114"]}
{"id": "C72", "title": "Where EFInterpolator samples the field", "statement": "For a plane over a full mask, output pixel (i, j) is the plane at the position c + R((i(n-1)/N, j(m-1)/M) - c)/magnification + (xShift, yShift), with c the centre of the input, as long as it is inside the input: rotation and magnification are about the centre, but the x shift moves the rows (the documentation calls it horizontal), a change of resolution alone scales a tilt by (n-1)/n, and a tilt about the centre gets the mean -q(n-1)/(2N). update_parameters with both shifts sets them; shifts that are not given are exchanged; a magnification that is not given raises an exception.", "quantifier": "for all sizes, rotations, magnifications, shifts, planes and output pixels whose position is inside the input", "why_tests_cant": "A test compares a few samples with a tolerance, usually on symmetric pupils where exchanged axes and half-pixel offsets do not show.", "anchors": ["specula/lib/interp2d.py:182", "specula/lib/extrapolation_2d.py:320", "specula/lib/extrapolation_2d.py:346"]}
{"id": "C73", "title": "What a CCD reads out is the light that fell on it", "statement": "Without noise a pixel of a CCD is the integrated light times the quantum efficiency; with binning b it is the mean of its block, so the total is the light divided by b squared. With photon noise the signal is converted to ADU and back: the result is a whole number of ADU, not below minus the bias, and unless clipped it differs from the signal divided by the electron multiplication gain, minus the dark level, by at most half an ADU; the same bound holds for the mean over the random numbers. With electron multiplication the gain cancels and the readout noise is the level asked for. Background and dark levels are both added as soon as one of the two noises is switched on; only the dark level is removed, and only if dark noise and photon noise are both on. Without photon noise there is no conversion and the gain and the dark level stay in the frame. A size that is not a multiple of the binning can be accepted and is then read with other blocks.", "quantifier": "for all frames, sizes, binnings, levels, gains, biases, random numbers and distributions with a mean", "why_tests_cant": "Tests look at means of a few random frames for a few settings of the switches; they cannot bound the error of every pixel for every level and setting.", "anchors": ["specula/processing_objects/ccd.py:150", "specula/processing_objects/ccd.py:253", "specula/processing_objects/ccd.py:268", "specula/processing_objects/ccd.py:319"]}
{"id": "C74", "title": "The sub-apertures of a Shack-Hartmann sensor are the blocks of the image", "statement": "On a square image of side n times s, ShSubapCalibrator with n sub-apertures returns exactly the blocks of s by s pixels whose light exceeds the threshold times the light of the brightest block, column of blocks after column of blocks. Each has its pixels row after row, so that the slope computer reads the pixels of that block, and its position on the map is the block row times n plus the block column. Sub-apertures share no pixel and miss none; errors below half a pixel in the coordinates of the lenslets do not matter, nor does the brightness. With a threshold below one and some light the calibration succeeds; with a threshold of one or more, or without light, it is an error. For sizes that are not a multiple of n this fails: some are an error, for others sub-apertures share pixels.", "quantifier": "for all numbers and sizes of sub-apertures, images, thresholds and positions of the lenslets within half a pixel", "why_tests_cant": "Tests use one or two sizes; the slices depend on rounding of coordinates for every sub-aperture of every size.", "anchors": ["specula/processing_objects/sh_subap_calibrator.py:76", "specula/data_objects/lenslet.py:31", "specula/data_objects/subap_data.py:63"]}
{"id": "C75", "title": "The four pupils of a pyramid are aligned pixel by pixel", "statement": "PyrPupdataCalibrator finds the pupils: with one level of light on a pupil the mask is the pupil; for any image with light the brightest pixel is in the mask; moving a pupil by whole pixels moves its centre by as much. In geometric mode, if the disc of the largest pupil stays in the frame in its four positions, row k of the table has pixel k of the first pupil moved by the whole distance to each of the others; for an image with four copies of one pupil this distance is the exact one, and the columns are top right, top left, bottom left, bottom right. Coordinates survive floating point. If a pixel leaves the frame the rows are misaligned, but the slope computer then refuses the table. In intensity mode each column has the pixels of its own disc, and the slope computer refuses the table unless the four discs have as many pixels. If the first column is in the top right quarter of the frame, the map of the slopes has its pixels in the order of the table.", "quantifier": "for all frames, shapes and positions of the pupils, thresholds, obstructions and roundings with 53 bits", "why_tests_cant": "Tests use one frame with four equal discs; alignment depends on rounding of centres and on borders for every geometry.", "anchors": ["specula/processing_objects/pyr_pupdata_calibrator.py:195", "specula/processing_objects/pyr_pupdata_calibrator.py:238", "specula/processing_objects/pyr_pupdata_calibrator.py:355", "specula/data_objects/pupdata.py:84"]}
{"id": "C76", "title": "Shack-Hartmann sensor: every lenslet images its own sub-aperture, with all the photons of the pupil", "statement": "For any field, lenslet array, pixel scale and oversampling: (resolution) the internal resolution chosen by SH is an integer fraction of the diffraction limit of a sub-aperture and is finer than a pixel of the detector; the search for it always ends, and takes a trial with a field of view accurate within 2% if one of the ten has it; (geometry) the field is interpolated to a multiple of twice the number of lenslets, at least as large as asked for and no larger than needed, so that every lenslet gets the same even number of pixels; the part of the focal plane sent to the detector is an even number of FFT pixels, never more than the FFT provides, and the field of view differs from the one asked for by at most one of them; (separation) before normalisation the pixels of a lenslet depend on the field in its own sub-aperture only; (light) the frame holds exactly S0 times the masked area in photons, whatever is lost out of the field of view; (devices) DistributedSH returns what SH returns when the number of slices divides the number of lenslet rows, otherwise the remaining rows are dark. Provided that the size int(size*oversampling), computed in floating point, is not truncated one pixel short (it is for 26 pixels and 5 lenslets: the first frame raises), and that some light reaches the detector (otherwise the frame is not a number).", "quantifier": "for all sizes, numbers of lenslets and of pixels, pixel scales, wavelengths, oversampling coefficients, fields, local and non-negative spot functions, numbers of slices and rows of lenslets", "why_tests_cant": "Tests run a few configurations; sizes depend on rounding of ratios of floating point numbers and on integer divisions that only fail for particular combinations, and cross-talk between lenslets would be invisible in a comparison with a stored frame.", "anchors": ["specula/processing_objects/sh.py:176-330", "specula/processing_objects/sh.py:332-380", "specula/processing_objects/sh.py:450-521", "specula/processing_objects/sh.py:534-575", "specula/processing_objects/distributed_sh.py:38-137"]}
{"id": "C77", "title": "Modulated pyramid: pupils of the requested size and distance, a balanced modulation, and no light lost unreported", "statement": "For any pupil size, wavelength, field of view and pupil geometry: (field) the field of view is the one asked for, or what the field provides if that is within the accepted error below; the interpolation is the least that reaches it; the FFT has an even size, and the reported resolution is the actual one; a natural field above the accepted error is refused; (pupils) an accepted geometry has pupils and margins within the detector; pupils are separated by the requested distance in units of their diameter, neither overlap nor wrap around the FFT, and have the requested diameter and distance on the detector within the rounding of the FFT size, provided that fft_res is enough for the geometry (otherwise they come out smaller); (modulation) circular steps lie at the amplitude, average to zero, are at most one lambda/D apart and look the same from the four faces when their number is a multiple of four; linear steps run symmetrically between minus and plus the amplitude along one axis, that alternates at each frame for the alternating type; all weights are finite and at least one, and symmetric; default steps are accepted when given explicitly, from an amplitude of 3/4; (light) accumulated images are weighted averages, the transmission is between 0 and 1 and is 1 with an open mask, and the detector holds S0 times the masked area times the transmission times the reported fraction inside the detector, which is 1 unless the final detector is smaller than the internal one.", "quantifier": "for all pupil sizes, fields of view, accepted errors, pupil diameters, distances and margins, detector sides, modulation types, amplitudes, numbers of steps, intensities and masks", "why_tests_cant": "Sizes come from chains of roundings that fail only for particular combinations (an odd pupil, an FFT resolution below the minimum, an amplitude just under 3/4); tests use one configuration and compare a stored image.", "anchors": ["specula/lib/calc_geometry.py:49-97", "specula/processing_objects/modulated_pyramid.py:208-235", "specula/processing_objects/modulated_pyramid.py:306-370", "specula/processing_objects/modulated_pyramid.py:457-541", "specula/processing_objects/modulated_pyramid.py:548-632"]}
{"id": "C78", "title": "Field analyser: each source gets its own data, and cached files are those of the same request", "statement": "For any list of sources and any sequence of calls of the PSF, modal and phase cube analyses on one output directory: (sources) polar coordinates given as two rows (radii, angles), or as one row per source when there are not exactly two sources, give each source its own radius and angle; (names) names of files tell sources, pixel sizes and wavelengths apart up to the printed decimals (0.1 for coordinates, 0.01 mas, 1 nm) and differ between sources on a grid of tenths; (results) provided that names tell the requests apart and that coordinates are not negative, every call, whether it computes or finds files of earlier calls, returns for each source, in order, the data of that source, and with force_recompute it does so whatever the directory contains; (limits) two sources that share a name both get the data of the last; files left by a request of other data with the same names are returned unchanged; a negative coordinate makes the analysis fail.", "quantifier": "for all lists of sources, coordinates, pixel sizes, wavelengths, modal settings, output directories and sequences of calls", "why_tests_cant": "Tests run one call in an empty directory with one or two sources on round coordinates; wrong results need a second call with other settings, coordinates closer than the printed decimals, a negative angle, or exactly two sources given by rows.", "anchors": ["specula/field_analyser.py:79-96", "specula/field_analyser.py:98-168", "specula/field_analyser.py:265-397", "specula/field_analyser.py:511-739", "specula/simul.py:129-171", "specula/simul.py:311-332"]}
{"id": "C79", "title": "Pupil masks: the requested disc, annulus or square, symmetric, with the right area and shadows of the spider", "statement": "For any frame, diameter, obstruction and centre: (shape) a pixel of make_mask is one exactly when its centre is inside the circle (or square) of diameter diaratio times the frame around the requested centre and not in the obstruction, obsratio times as wide; obstruction and annulus divide the disc; larger diameters keep all pixels; whole-pixel moves of the centre move the mask; centred masks are symmetric; the default disc equals the default CircularMask, and an AnnularMask needs a centre; (area) the number of pixels of a disc that fits in the frame is between the areas of the discs half a pixel diagonal smaller and larger in radius; (indices) get_idx returns exactly the pixels at one, row by row; (spider) arms are evenly spaced from the offset angle, pixels within half of 1.2 times the width of an arm are dark and those further than that by more than half a pixel and half a diagonal are untouched; inversion gives the complement; (limit) centeronpixel ignores the requested centre and centres the mask on the corner pixel.", "quantifier": "for all frame sizes, ratios, centres, numbers, widths and angles of arms, and pixels", "why_tests_cant": "Tests look at a few frames and totals; shapes depend on real parameters, on parity of the frame and on the angle of each arm, and the existing test of centeronpixel only checks that the mask changes.", "anchors": ["specula/lib/make_mask.py:7-147", "specula/lib/make_xy.py:141-177", "specula/lib/mask.py:120-132", "specula/lib/mask.py:360-379", "specula/data_objects/pupilstop.py:45-55"]}
{"id": "C80", "title": "Petals: a partition of the pupil into equal sectors, with centred and normalized tilts", "statement": "For any pupil mask, number of petals and offset angle: (partition) without special_last_petal every pixel of the mask is in exactly one petal, petal p holding directions from p to p+1 times a turn over the number of petals minus the offset, so that piston modes add to one at each point; one petal more of offset renames the petals in turn; (tilts) with add_tilts there are three modes per petal, pistons first, then tips, then tilts; tips and tilts vanish outside their petal, have zero mean on it and root mean square one, or are zero where the coordinate does not vary; (limits) with special_last_petal the last petal is the whole pupil; with an offset between zero and half a petal the spider arms drawn by the same call lie inside the petals and not between them; petals meet half a pixel off the centre of the mask.", "quantifier": "for all frame sizes, masks, numbers of petals and offset angles", "why_tests_cant": "Tests check shapes of arrays for one number of petals without offset; overlap, gaps and direction of rotation show only at particular angles and pixels.", "anchors": ["specula/lib/compute_petal_ifunc.py:51-138", "specula/lib/make_mask.py:75-136"]}
{"id": "C81", "title": "Curvature, Zernike and double-roof signals, and the maps of slopes", "statement": "For any frames: (curvature) slope k is (I1-I2)/(I1+I2) at pixel k of the pupil, within -1 and 1 when no pixel is negative, opposite when the two images are exchanged, and unchanged when both are brighter; pixels whose sum is below 1e-9 are not normalised and count as one in the flux outputs, so that dark images of n pixels report n counts; (pixels) on a square detector the pixels used are exactly those whose centre is in the requested ring, in increasing order; on a wider one they are those of the square at its left edge; (Zernike) slopes are the light over its mean in the pupil, their mean is one and they do not depend on brightness; without light there is none; (double roof) x is the difference of the first two pupils and y that of the last two, over the mean light; (maps) get2d puts the slopes of subaperture k at its place and zero elsewhere, one map if there is one slope per place and else one for x and one for y; for the curvature and Zernike sensors it always raises.", "quantifier": "for all detector sizes, diameters, obstructions, frames and slope vectors", "why_tests_cant": "Tests use one square detector and a few frames; the statement is about every size, geometry and intensity, including dark and negative pixels, and get2d is not exercised for these sensors.", "anchors": ["specula/processing_objects/cur_wfs_slopec.py:43-132", "specula/processing_objects/zwfs_slopec.py:37-94", "specula/processing_objects/double_roof_slopec.py:48-59", "specula/data_objects/slopes.py:143-191", "specula/data_objects/pupdata.py:85-105"]}
{"id": "C82", "title": "Cubes of phase screens: layout, time and scale", "statement": "For any cube: (layout) an array given with time on its last axis is stored with time first, element by element, and new values are treated the same way unless all axes have the same length, when they are taken as time first; (time) between the first and last time of the cube the screen is the linear interpolation of the two around the current time, multiplied by the factor; at each time of the cube it is its own screen; each pixel stays between its two values; after the last time nothing is produced; before the first time the last screen of the cube enters in place of a previous one and screens of constant value come out with the opposite sign; a cube of one screen is never usable; (space) a cube with the pixels of the pupil is applied as it is, cubes that are not square are refused, and for a plane the step between pixels of the pupil is that of the sampling, short by one part in the size of the cube; (names) the field of a source is stamped with the time of its layer exactly when `_layer` does not occur in the name of its output.", "quantifier": "for all cubes, times, sizes, factors and source names", "why_tests_cant": "Tests use one small cube and a few times inside it; the statement is about all times, also outside the cube, all sizes and all names.", "anchors": ["specula/data_objects/spatio_temp_array.py:47-149", "specula/processing_objects/phase_screen_cube.py:73-163"]}
{"id": "C83", "title": "Sensors with several wavelengths: light, mixture and tilts", "statement": "For any wavelengths, flux factors, tilts and frames of the single sensors: whenever the weighted frames have light the output has exactly the light of the input field; each pixel is the sum of the frames weighted with the flux factors as given and scaled to that light, so that a common factor of the flux factors does not matter; when every sensor gives the light of the field the output is the weighted mean of the frames; with one wavelength it is its frame; dark frames stay as they are; get_wavelength_contribution gives the parts of the sum before the final scaling, for indices in range only; the phase seen by a wavelength is that of the field plus a plane without mean whose steps are those of the requested angles times n/(n-1); without tilts it is that of the field; fields that are not square and lists of different lengths are refused.", "quantifier": "for all numbers of wavelengths, flux factors, tilts, frames and sizes of the field", "why_tests_cant": "Tests compare a few configurations with a tolerance wider than the error of the tilt; the statement is about every configuration and gives the exact factor.", "anchors": ["specula/processing_objects/poly_chrom_wfs.py:26-191"]}
{"id": "C84", "title": "Photons of a source: magnitudes, bands and background", "statement": "For any arguments of n_phot: photons of source and background grow in proportion to surface and time; five magnitudes more are a hundredth of the photons, a larger magnitude always gives fewer; the photons of the background are those of a source of its magnitude; a named band is the table entry of that name, with the given wavelength if there is one, and unknown names raise; without a name the default model uses the sodium band within 0.1 nm of 589 nm and elsewhere the band in whose limits (the midpoints between central wavelengths, belonging to the shorter band) the wavelength lies; naming a band of the default model is the same as giving its wavelength; in the MAORY-1 model every wavelength above 1.45 um is taken as H, K is never found from a wavelength and 'J' is unknown. The flux of a Source exists exactly when its band is empty or known, is proportional to a positive zero point and ignores the others.", "quantifier": "for all wavelengths, magnitudes, surfaces, times, bands and zero points", "why_tests_cant": "Tests compare a few values; the statement determines the band for every wavelength and the scaling for every argument.", "anchors": ["specula/lib/n_phot.py:153-287", "specula/data_objects/source.py:149-165"]}
{"id": "C85", "title": "Refraction of air and chromatic shifts of the beams", "statement": "For any wavelength and state of the air: below 1.3 um the refraction of dry air is proportional to pressure over absolute temperature and that of the standard at 15 degrees and 101325 Pa; blue light is refracted more than red from 0.2 um on; between 0.3 and 1.3 um more humidity means less refraction; beyond, the tables L, M, N, Q serve exactly their ranges and every other wavelength is computed with the table of K, and each table gives its leading coefficient at its centre in the reference state; an array of wavelengths gives the values each has alone, one wavelength a number, and none raises. The pressure is positive and decreases inside each of its three ranges, but increases at 11000 m. The chromatic shift of a layer is additive in the wavelengths, so antisymmetric and zero for equal ones; it is zero when off, at the zenith and at the telescope; below 1.3 um a source bluer than the reference is moved towards lower rows, the more the higher the layer. Without shift the propagation is the usual one; for sources off the axis a shift changes the phase of a plane by slope times shift; for a star on the axis and a plain layer it is ignored.", "quantifier": "for all wavelengths, temperatures, pressures, humidities, zenith angles, layers and sources", "why_tests_cant": "Tests compare a few values with the literature; the statement is about every wavelength and state, the gaps between tables and every geometry.", "anchors": ["specula/lib/air_refraction.py:97-208", "specula/processing_objects/atmo_propagation.py:317-470"]}
{"id": "C86", "title": "Physical propagation between layers", "statement": "For any padded size, wavelength and distance: the propagation is linear, and a wave of whole periods comes out multiplied by a factor of modulus one (zero outside the band, if a band limit is set). With an even number of pixels, when the distance is not reduced, the factor is exactly the phase of paraxial propagation; with an odd number it is that of the wave with one period less along both axes, which is the right phase times a constant times a sideways shift. The padded field keeps its energy without band limit and never gains any; the pupil never gains any; propagators of ones change nothing; two propagations of the padded field are one over the sum of the distances. A distance that the band does not allow is replaced by the smaller distance at which the band just propagates. Phase and amplitude stored afterwards give back the field at that wavelength. Layers sorted by height are accepted, others refused beyond the tolerance, an infinite source always. Upwards the field travels from each layer to the next and finally to the source; downwards from each layer to the one below, and no more after the lowest; nothing is done between equal heights.", "quantifier": "for all sizes, fields, wavelengths, pixel sizes, distances, band limits and lists of heights", "why_tests_cant": "Tests propagate a few fields and look at the error; the statement is about every field and every size, odd ones included.", "anchors": ["specula/processing_objects/atmo_propagation.py:172-238", "specula/processing_objects/atmo_propagation.py:265-275", "specula/processing_objects/atmo_propagation.py:306-309"]}
{"id": "C87", "title": "Vibrations from spectra", "statement": "For any spectrum, sampling frequency, phases and number of iterations: the signal has mean zero; its power together with that of the unused second result is exactly twice the sum of the spectrum times the step of frequency, the last value counted once; averaged over two sets of phases a quarter apart the power of the signal is that of the one-sided spectrum less half a step of its last value. The coefficient of the signal at its k-th frequency is the root of the k-th value of the spectrum times the step, times the mean of two independent phases, so never larger. The interpolated spectrum has the given values at the given frequencies, stays within their bounds, and is the given one when there are as many evenly spaced frequencies as needed; its values fall on the frequencies of the signal only when the given ones go from one step to half the sampling frequency. Each mode depends on its own spectrum and frequencies and the seed plus its number; from zero means that the first sample is subtracted. Too few spectra or frequencies are refused. There is a sample for every iteration, and the last one is held afterwards.", "quantifier": "for all spectra, frequencies, seeds, phases, numbers of modes and iterations", "why_tests_cant": "Tests compare the power of a few random signals with a tolerance; the statement is exact and holds for every realisation.", "anchors": ["specula/processing_objects/vibration_generator.py:45-80", "specula/processing_objects/vibration_generator.py:136-141", "specula/lib/utils.py:188-224"]}
{"id": "C88", "title": "Coronagraphs and focal plane filters", "statement": "For any field, apodizer, focal plane mask and pupil stop: the transmission applied to the flux is the energy of the field after the coronagraph over that before, between zero and one when nothing amplifies; with a clear focal plane the field is the input times apodizer and stop. The Lyot mask stops angles within the inner working angle, which is a radius, and beyond half the outer one, which is a diameter (or beyond half the array if none is given); the knife edge is at the middle. The four-quadrant mask delays the quadrants where exactly one coordinate is in the second half; with a delay of pi, a field symmetric about the middle column leaves nothing on the axis behind a symmetric stop. The vortex mask with a whole charge is the direction from the middle pixel to the power of the charge; it and the four-quadrant mask only change phases. The focal plane filter passes a ring in the field asked for, and the dark zone of the apodizing phase plate is a ring or its right part. Negative or inverted stops are refused, as is a knife edge with an outer working angle.", "quantifier": "for all fields, apodizers, masks, stops, sizes of array and pupil, angles, charges and delays", "why_tests_cant": "Tests look at a few images with tolerances; extinction on the axis and conservation of energy are exact statements about every field.", "anchors": ["specula/processing_objects/abstract_coronagraph.py:124-184", "specula/processing_objects/lyot_coronagraph.py:28-75", "specula/processing_objects/four_quadrant_coronagraph.py:50-64", "specula/processing_objects/vortex_coronagraph.py:57-72", "specula/processing_objects/focal_plane_filter.py:47-52", "specula/processing_objects/apodizer_coronagraph.py:56-64", "specula/lib/utils.py:274-338"]}
{"id": "C89", "title": "Perfect coronagraph", "statement": "For any amplitude and phase with light: the coronagraph that removes the average leaves nothing on the axis of the image, and exactly the energy not explained by the average; the energy left over that of the image without coronagraph is one minus the Strehl ratio for a flat amplitude. It leaves the least energy among all multiples of the pupil mask that could be removed. A flat wavefront is removed completely by the version with the coherent core; a piston changes neither image; phases beyond whole waves do not matter to the version with the average but do to the other. The long exposure is the mean over the triggers from the start time on and its standard deviation the root of the mean square less the square of the mean.", "quantifier": "for all amplitudes, phases, sizes of array and sequences of triggers", "why_tests_cant": "Tests compare images with thresholds for a few wavefronts; that nothing is left on the axis and that no other multiple does better are exact statements about every wavefront.", "anchors": ["specula/processing_objects/psf_coronagraph.py:142-199", "specula/processing_objects/psf_coronagraph.py:210-231"]}
{"id": "C90", "title": "Extended sources", "statement": "For every size and sampling: the points of a flat extended source have fluxes that add up to one; a disc has its points within its radius and its centre of light in the middle, and has no points exactly when it is less than three steps of the sampling across; rings are centred when the first is longer than the sampling, and given numbers of rings are used with even spacing; the size of a gaussian is its full width at half maximum, fluxes follow it, and points below a tenth of the largest are left out. The coefficient of a point is that of the tilt of a wave from its direction, and that of a layer the focus of its height times the focus height over its height. With layers the fluxes are multiplied by the profile. The flux threshold keeps exactly the points above that part of the mean. In the pyramid the light of weak points goes in equal parts to four points, keeping the total; the sum over points does not depend on the size of the batches.", "quantifier": "for all sizes, samplings, numbers of rings, layers, thresholds, lists of fluxes and sizes of batches", "why_tests_cant": "Tests make a few sources; that the centre of light is in the middle or the total one depends on rounding of sizes and number of points, and holds only with provisos no sample shows.", "anchors": ["specula/processing_objects/extended_source.py:143-147", "specula/processing_objects/extended_source.py:217-477", "specula/processing_objects/extended_source.py:612-693", "specula/processing_objects/ext_source_pyramid.py:288-349", "specula/processing_objects/ext_source_pyramid.py:409-455"]}
{"id": "C91", "title": "Kernels of laser guide stars", "statement": "For every launcher, sodium profile and number of subapertures: a layer is seen by a subaperture along the straight line to the beam at its height, so that two layers are seen apart by the distance from the launcher times the difference of inverse heights; the spot has its full width at half maximum; every kernel adds up to one if some layer has light; only the shape of the profile matters; the kernel used for row a and column b is that of the subaperture there. The image of the sensor with kernel is the correlation of the image without it with the kernel and keeps the light. With names that differ for different parameters, kernels from memory, from files or newly calculated are, after any sequence of profiles, those of the last profile.", "quantifier": "for all launchers, profiles, numbers of subapertures and pixels, oversamplings, images, and sequences of profiles with any files on disk", "why_tests_cant": "Tests look at a few kernels; which subaperture gets which kernel after two transpositions, and which kernels are in use after changes of profile and files, are statements about every grid and sequence.", "anchors": ["specula/data_objects/convolution_kernel.py:46-111", "specula/data_objects/convolution_kernel.py:175-199", "specula/data_objects/convolution_kernel.py:284-299", "specula/data_objects/convolution_kernel.py:354-392", "specula/data_objects/gaussian_convolution_kernel.py:44-63", "specula/processing_objects/sh.py:431-447", "specula/processing_objects/sh.py:472-482"]}
{"id": "C92", "title": "Ideal derivative sensor", "statement": "For every pupil and phase: the slopes of a subaperture are a common scale times the mean derivatives of the phase over the pixels of its block of the grid that are lit and not flat. A tilt gives its exact slopes in every subaperture with a lit pixel, however small the lit part, and zero in the others, provided lit parts are at least two pixels wide; a piston and the phase outside the pupil have no effect; slopes are proportional to the phase, and add up for phases for which no lit pixel is flat. A direction off axis gives its angle over half the field of view times (np_sub - 1) / np_sub. While the mask stays the same, every trigger gives what a new sensor would give.", "quantifier": "for all amplitudes, phases, sizes of the field, grids of subapertures and sequences of fields", "why_tests_cant": "Tests use one round pupil and a few modes; that a partly lit subaperture has no bias is a statement about every pupil, and that slopes are not additive where a phase is flat is not seen with smooth modes.", "anchors": ["specula/processing_objects/ideal_derivative_sensor.py:35-51", "specula/processing_objects/ideal_derivative_sensor.py:87-137", "specula/processing_objects/ideal_derivative_sensor.py:139-234"]}
{"id": "C93", "title": "Estimation of mis-registrations (SPRINT)", "statement": "Every vector of slopes goes into exactly one estimate, in order; estimates use at least ten vectors and are at least the given interval apart, and with a fixed time step come at known steps; the outputs change only there, and the interaction matrix is that of the parameters given. Sensitivities are the derivatives, without an error of second order. Slopes that follow one modulation give a column proportional to their amplitudes and signs, and optical gains are found and removed, so that the true parameters are at rest up to 1e-12. Corrections are the errors if sensitivities are orthogonal. With one mode, one parameter, no forgetting and a linear response, the estimate goes monotonically from zero to the true value at a known geometric rate, whatever the optical gain. Fewer iterations than the maximum are made only if the criterion is met.", "quantifier": "for all sequences of slopes and times, interaction matrices, parameters, gains and numbers of iterations", "why_tests_cant": "The tests run one mode and one or two misregistrations; the rate, the rest point and the cases that diverge are statements about all responses.", "anchors": ["specula/processing_objects/base_sprint_estimator.py:130-206", "specula/processing_objects/base_sprint_estimator.py:235-261", "specula/processing_objects/base_sprint_estimator.py:293-396", "specula/processing_objects/base_sprint_estimator.py:398-518", "specula/lib/synim_utils.py:57-68", "specula/lib/demodulate_signal.py:60-165"]}
{"id": "C94", "title": "LIFT estimator", "statement": "The frame that is analysed is the surroundings of the pixel nearest to the barycentre; whole-pixel motions of the image inside the detector do not change frame nor estimate. The functions used as derivatives are the derivatives of the model image with respect to the modal coefficients. Each iteration gives the combination of derivatives nearest to the difference between image and model, weighted with the inverse of the image; to first order it gives back the mode that was added; an image of the current phase leaves everything unchanged. The first model image is the reference one moved by the distance of the barycentre from the centre. The phase of every iteration is that of the coefficients found, and the coefficients returned, added to the reference ones, give the phase of the last model.", "quantifier": "for all images, sizes, modes, masks, reference amplitudes, numbers of iterations", "why_tests_cant": "The tests run a few aberrations with loose tolerances on the result; whether derivatives, reconstructor and signs are right for all modes and images is not decided by a few cases that converge.", "anchors": ["specula/processing_objects/lift.py:147-217", "specula/processing_objects/lift.py:288-354", "specula/processing_objects/lift.py:356-424", "specula/processing_objects/lift.py:434-466"]}
{"id": "C95", "title": "Rotating shearing interferometer and demodulation of its fringes", "statement": "The image of the sensor follows the law of interference of the two branches: fluxes in the given proportion, contrast 4 sqrt(f(1-f)) and the phase of the difference of the wavefronts minus the tilt; the tilt of m wavelengths over the field gives m fringes; a piston of the field is not seen; the normalised image has the photons of the field. The slope computer gives the part of the image that the window lets through, moved to zero frequency: for an even size and an even number of fringes, with a window that separates the bands, the map is the difference of the two wavefronts if that is within half a wavelength; for straight fringes and the window of the code the error is at most the arc sine of what the window lets through of the mean and of the other band. The map does not depend on the gain of the detector, is within half a wavelength and is zero outside the mask.", "quantifier": "for all fields, sizes, wavelengths, tilts, fluxes, windows and masks", "why_tests_cant": "The tests look at the shape and the total of one image and at a flat wavefront; signs, rolls and parities of the sizes combine in ways that a few cases cannot cover.", "anchors": ["specula/processing_objects/ciao_ciao_sensor.py:87-114", "specula/processing_objects/ciao_ciao_sensor.py:150-244", "specula/processing_objects/ciao_ciao_slopec.py:145-201"]}
{"id": "C96", "title": "Curvature sensor: symmetries, photons and scale of the two images", "statement": "The sensor works on a grid of even size with the requested sampling or finer. The first image is the one in focus of the field with the defocus (Noll's polynomial 4 of the given rms on the inscribed disk) added, the second with it subtracted. Aberrations odd about the centre of a symmetric amplitude give two equal images and zero slopes; the opposite of an even aberration exchanges the images and changes the sign of the slopes; any opposite aberration exchanges and reflects them. Before the stop both images have the total of the field, and both outputs have its photons if not dark. The stop is a disk of the field of view and the cut keeps the zero frequency at its centre when it is not larger than the grid. A tilt of p waves over the grid moves the image by p pixels.", "quantifier": "for all fields, sizes, defocus, wavelengths, fields of view and detectors", "why_tests_cant": "The tests check the shape and the flux of one pair of images; symmetries relate the outputs of different fields, for all fields.", "anchors": ["specula/processing_objects/curvature_sensor.py:57-66", "specula/processing_objects/curvature_sensor.py:97-164", "specula/processing_objects/curvature_sensor.py:174-221"]}
{"id": "C97", "title": "Propagation of light through the modulated pyramid", "statement": "The image of the pyramid is the one of Fourier optics with the tip between pixels, at zero frequency: the field is the sum of four, each made by the light that falls on one face and displaced by the size of the FFT over the tilt scale along both axes, in the direction set by the face; light on one face only gives one displaced copy of the pupil. The total of the image is the light of the field times the transmission of the stop that is output. Reflected or transposed fields give reflected or transposed images with the modulations of the sensor (circular with an even number of steps, or a multiple of four; linear along the axis that moves), so that a field with the symmetries of the pyramid puts the same light in the four pupils. A piston changes nothing, and a tilt of the field is the same as a tilt of all the steps. Without faces the image is the pupil in the centre of the array.", "quantifier": "for all fields, sizes with even sampling and padding, tilt scales, stops, modulations and numbers of steps", "why_tests_cant": "The tests look at shapes and total flux of a few images. That the half pixel shift, the orders of the FFT, the faces, the stop and the roll agree is a statement on all fields.", "anchors": ["specula/processing_objects/modulated_pyramid.py:262-288", "specula/processing_objects/modulated_pyramid.py:368-455", "specula/processing_objects/modulated_pyramid.py:457-541", "specula/processing_objects/modulated_pyramid.py:549-591"]}
{"id": "C98", "title": "Zernike sensor and double roof", "statement": "The Zernike sensor shifts the phase inside a disc of the given radius, in wavelengths over the diameter, centred on the axis. At each point of the pupil the intensity is that of the interference of the field with the field of the light in the disc, delayed by the given fraction of π; with the default shift it decreases with the phase over a whole half turn around the reference, and with whole waves it is the image of the pupil. The light is that which passes the stop, and reflected or transposed fields give reflected or transposed images. Each roof of the double roof makes one pupil for each side of its edge, displaced by the size of the FFT over the tilt scale along both axes, as the pyramid does; the second pair of pupils is the image of the first roof for the transposed pupil, upside down. Light in one quadrant lights one pupil of each pair. The four pupils hold twice the light that passes the stop, and the transmission is that of the pyramid.", "quantifier": "for all fields, sizes with even sampling and padding, radii, shifts, tilt scales, stops and modulations", "why_tests_cant": "The tests look at shapes of the output. The displacement of the pupils depends on two arrays that share memory, and the interference on all the frequencies of the field.", "anchors": ["specula/processing_objects/zernike_sensor.py:23-75", "specula/processing_objects/modulated_double_roof.py:82-228"]}
{"id": "C99", "title": "Gains and resets while a filter runs", "statement": "A dynamic integrator outputs, at every step, the leaky integral since its last reset of the input times the gain in force at each step: the last finite gain received at its own time, or the first one; gains received later do not touch what was integrated before. For any dynamic IIR filter (with leading coefficient not zero) gains act as a gain modulation equal to the gain in force over the first one. From the step of a reset on, the outputs, delayed or not, are those of a new filter with the present gains; the delayed command is the one of d steps before, interpolated, with zero in place of the commands before the last reset. Gains and resets generated at other times have no effect. (An integrator built with gain zero never moves whatever it receives, and a vector of more than one gain stops it: the code does not support them.)", "quantifier": "for all sequences of inputs, gains, resets and times, delays, numbers of modes and steps", "why_tests_cant": "There are no tests of these objects, and the effect of a gain or a reset depends on the whole history before it.", "anchors": ["specula/processing_objects/dynamic_integrator.py:79-94", "specula/processing_objects/dynamic_iir_filter.py:70-85", "specula/processing_objects/base_filter.py:67-149", "specula/processing_objects/iir_filter.py:73-108", "specula/data_objects/iir_filter_data.py:159-191"]}
{"id": "C100", "title": "Low pass filters", "statement": "A low pass filter of even order n, for every list of cut-off frequencies between zero and half of the sampling frequency, is stable (bounded inputs give bounded outputs), passes constants unchanged in the long run, stops half the sampling frequency, and answers a sinusoid of frequency f, after the transient, with a sinusoid whose power is multiplied by 1/(1 + (tan(pi f T)/tan(pi fc T))^(2n)): at least half of the power is left exactly for f up to fc, and exactly half at fc. A filter built with an amplification is stable, passes constants and has the response 1/(1 - x^2 + i x/ampl), whose modulus at the cut-off is the amplification; with 1/sqrt(2) it is the filter of order 2. The filter of order 1 is stable and passes constants, but at its cut-off leaves (1 + w^2)/(5 + 4 w + w^2) of the power (about one fifth, not one half). Odd orders above one, frequencies from half of the sampling frequency on, and both or neither of order and amplification are rejected.", "quantifier": "for all time steps, lists of cut-off frequencies, even orders, amplifications, input frequencies, amplitudes, phases and bounded inputs", "why_tests_cant": "The frequency response is a limit over infinitely many samples for a continuum of frequencies and all orders; the tests compare one simulation with stored data and check coefficients of order 2.", "anchors": ["specula/data_objects/iir_filter_data.py:853-973", "specula/data_objects/iir_filter_data.py:105-132", "specula/processing_objects/low_pass_filter.py:8-40", "specula/processing_objects/iir_filter.py:73-102"]}
{"id": "C101", "title": "Zonal mirrors: positions, coupling and slaving", "statement": "The square geometry puts n^2 actuators on a grid from the first to the last pixel, different ones at least a step apart; the circular one puts one actuator at the centre and 6r at r steps from it, up to the edge of the pixels, 1+3R(R-1) in all with R = floor(n/2)+1. The geometry alpao keeps the nodes of the square within a radius that falls with n: never the corners, above 48 actuators not the ends of the axes and above 432 nothing. If the spline passes by its nodes, every influence function is one at its actuator and zero at all the others, also when it is cut at 7.2 dim/n pixels (above 18 actuators). Mechanical coupling gives the surface of the uncoupled mirror for the command plus the first coefficient times the commands of the neighbours up to one step away and the second times those from one to two steps. With slaving the masters are the actuators which reach the threshold, relative to their own peak, inside the mask; the surface of the slaved mirror for commands of the masters is that of the whole mirror where each slave gets the combination of the commands of the masters written in the slaving matrix. The standard weights give a slave the mean of the masters up to 1.1 steps away (nothing if there are none); the linear ones the value at the slave of the plane that fits best, by least squares, the near masters and, with an edge weight, zero at a virtual actuator one step outwards; commands that lie on a plane are extrapolated exactly.", "quantifier": "for all sizes, numbers of actuators, offsets, positions, influence functions, masks, thresholds, weights, search radii and commands", "why_tests_cant": "Optimality of a fit, equality of surfaces for all commands and distances between all actuators range over continua; the tests check shapes, a few weights and one mirror.", "anchors": ["specula/lib/compute_zonal_ifunc.py:80-131", "specula/lib/compute_zonal_ifunc.py:138-206", "specula/lib/compute_zonal_ifunc.py:239-377"]}
{"id": "C102", "title": "Computed phase screens", "statement": "The screen computed for any random numbers is a sum of plane waves, one for each pair of opposite frequencies of u periods along the rows and v along the columns, 1 <= u < h, |v| < h; the factor of each is the square root of the von Karman spectrum at its frequency in cycles per metre, so that after scaling to a Fried parameter r0 the power of a frequency is 0.0229 r0^(-5/3) (f^2+1/L0^2)^(-11/6) per unit area of frequency. With independent draws the covariance of two pixels depends only on their separation. Not as expected: the frequencies with u = 0 are missing, so every column of every screen has mean exactly zero (rows have not), and those with u = 1 have half of the power. Requested sizes are rounded up to a power of two less than twice as large; draws that are not finite (up to one in a hundred) are replaced with the mean of the others.", "quantifier": "for all sizes, outer scales, pixel sizes, Fried parameters, random draws and pixels", "why_tests_cant": "Exact statements on every realisation and on the covariance of a random process need all the draws; the tests compare a statistic of one screen within a tolerance.", "anchors": ["specula/lib/calc_phasescreen.py:6-97", "specula/lib/calc_spatialfrequency.py:20-38"]}
{"id": "C103", "title": "Random phases, stored screens and the two ways of a link", "statement": "AtmoRandomPhase cuts the square screen into disjoint pupil-sized tiles, row by row; trigger t belongs to interval t / update_interval and shows the tile numbered by the interval modulo the number of tiles; with one trigger per phase, trigger t shows tile t mod n of the screen of seed s + t / n and no phase ever comes back. The phase in nanometres does not depend on the wavelength parameter and its square goes with the airmass and the seeing to the power 5/3. Screens read from the directory: whatever is asked and in whatever order, the screen given is one computed for a request with the same seed, size and precision; when pitches are whole thousandths of a metre and outer scales whole metres every request gets exactly its own; files never change. In AtmoEvolutionUpDown the two lists are those of two independent atmospheres, and until one of them reaches the end of the screen the way up at time T is the way down at time T plus the difference of the extra times. Not as expected: with update_interval > 1 the first phase of each new screen is not held but replaced at every trigger; requests with different outer scales or pitches may get the same screen; the lag of the two ways is lost at the end of the screen.", "quantifier": "for all sizes, numbers of tiles, intervals, seeds, times, histories of requests and of triggers", "why_tests_cant": "The schedule and the contents of the directory depend on arbitrarily long histories; the tests run a few steps in a fresh directory.", "anchors": ["specula/processing_objects/atmo_random_phase.py:151-220", "specula/lib/phasescreen_manager.py:8-54", "specula/processing_objects/atmo_evolution_up_down.py:137-177"]}
{"id": "C104", "title": "Missing pixels of magnified layers", "statement": "Before propagation the pixels of zero amplitude of a magnified layer get the mean of the phase of the pixels with light in the same block, or of the whole layer if the block has none; pixels with light never change and layers with magnification not above one are left alone. When every pixel is in a block and some pixel has light, no pixel of the result is NaN and all are within the range of the phase of the pixels with light. The result does not depend on what the missing pixels held before, so filling the same layer again, or from several propagations sharing it, changes nothing. Not as expected: layers with a number of rows not divisible by 2, 3 or 5 raise KeyError; blocks are chosen from the rows only, and leftover columns become NaN; a layer without light becomes NaN.", "quantifier": "for all shapes, amplitudes, phases, magnifications and pixels", "why_tests_cant": "The tests use three small arrays; the claim is about all masks and shapes.", "anchors": ["specula/lib/utils.py:227-271", "specula/processing_objects/atmo_propagation.py:248-263", "specula/processing_objects/atmo_propagation.py:499-507"]}
{"id": "C105", "title": "Noise covariance of elongated spots", "statement": "calc_noise_cov_elong without fitted profiles: the elongation of a sub-aperture along each axis is the angle under which the sodium layer is seen, -arctan(x t cos z / (h^2 - t^2/4 + x^2 cos^2 z)) for a coordinate x from the launcher; it is zero only at the launcher and grows with the distance up to distances of the order of the altitude. The matrix returned is symmetric and positive semidefinite and has no terms between different sub-apertures; for every sub-aperture that is not truncated its block is the inverse of the covariance of an elongated spot, (sigma_noise2/eta)(1 + b b^T / fwhm^2); for a truncated one it is zero along the elongation and has the weight of a round spot across it. The truncated sub-apertures are the whole part of the given fraction, and none is nearer to the launcher than one that is not truncated. With nothing truncated the matrix is positive definite. The diagonal version has the inverses of the variances of the single slopes, a quarter when truncated. Not as expected: coordinates are those of a corner of the sub-apertures, half a sub-aperture off; the diagonal version ignores the flux.", "quantifier": "for all geometries, sub-apertures, elongations, fluxes, noises, fractions and orders of equal distances", "why_tests_cant": "The tests compare the full and the diagonal matrix for one geometry; inverse and definiteness are statements about all elongations.", "anchors": ["specula/lib/calc_noise_cov_elong.py:65-84", "specula/lib/calc_noise_cov_elong.py:158-343"]}
{"id": "C106", "title": "Modal base from influence functions", "statement": "compute_ifs_covmat returns, for two influence functions, the covariance of the von Karman phase averaged over both of them (a sum over pairs of pixels of a function of their distance); the matrix is symmetric, never negative, and no shape that is not zero on the pupil is without variance; an oversampling below 2 is refused. make_modal_base_from_ifs_fft returns modes that are orthonormal on the pupil (the mean of a product is 1 or 0), and compute_ifs_covmat of these modes is diagonal with the singular values S2, positive and in decreasing order, whenever the singular values S1 of the modes kept are positive. Without Zernike modes the modes have zero mean. A maximum of the condition number cuts exactly the vectors whose singular value is below the first over that maximum. With Zernike modes the columns of m2c, applied to the mirror, give the modes returned, the KL ones up to a multiple of the mirror's piston. Not as expected: without Zernike modes the columns of m2c do not give the modes returned, not even up to piston, unless the means of the influence functions as commands give a flat unit shape; the modes passed as filt_modes are not removed, only counted; Zernike modes that the mirror cannot reproduce exactly are not fully removed.", "quantifier": "for all masks, influence functions, numbers of actuators and pixels, turbulence parameters and correct singular value decompositions", "why_tests_cant": "The tests build a base for one mask and compare shapes; orthogonality and decorrelation of the modes are statements about every set of influence functions, and the diagonal covariance needs an argument on the rank of the projected matrix.", "anchors": ["specula/lib/modal_base_generator.py:5-69", "specula/lib/modal_base_generator.py:71-176", "specula/lib/modal_base_generator.py:178-373"]}
{"id": "C107", "title": "Free space optical communication", "statement": "calc_paa is twice the speed of the object over the speed of light, in arcseconds. calc_effective_wind_speed returns as speed the length of the sum of the wind and of the speed of the object at the layer, hence between the difference and the sum of the two, the sum when the directions agree and the wind when the object is still; the speed at the layer is proportional to its height. calc_timing_uplink_downlink: the two delays add up to the time of light to the object and back along the line of sight, neither is negative below the object, the uplink delay is the longer one and both grow with the zenith angle. PowerLoss refuses parameters that are not positive; ten times the Strehl ratio is ten decibel more. ElectricFieldReflection gives the conjugate field with the same flux, and a second one gives the field back. Not as expected: the direction of the effective wind is the arctangent of one component alone (the second argument of numpy's arctan is the output array), right only for a wind along one half axis or with the second component equal to 1; the speed added at a layer is more than twice that of the line of sight; twice the distance loses and twice the diameter gains a factor two instead of four.", "quantifier": "for all speeds, heights, directions, zenith angles, distances, diameters, Strehl ratios and fields", "why_tests_cant": "The tests of the wind use a direction of 90 degrees and high speeds, where the arctangent of the speed is close to 90 degrees; the tests of the power loss repeat the formula.", "anchors": ["specula/lib/fsoc_lib.py:3-71", "specula/processing_objects/power_loss.py:13-56", "specula/processing_objects/electric_field_reflection.py:28-44"]}
{"id": "C108", "title": "Plate scale coefficients", "statement": "platescale_coeff gives, for each mirror after the first, the coefficients by which focus and astigmatisms of the mirror are compensated by the ground mirror on axis. If through the pupil a mode of the mirror is s times the mode of the ground mirror up to piston, and the three modes of the ground mirror are independent on the pupil, the coefficient is s. In general it is the part of that mode in the least squares fit of the mode with the three modes of the ground mirror. Mirrors that start after focus have zeros; there is a row for each mirror. With these coefficients LinearCombination puts the plate scale measured by the natural stars on the upper mirror with no effect on axis: the phase on the pupil depends on it only by piston. Proviso: a mirror that starts at mode 1 is compared with the wrong modes, and a pupil with an odd number of pixels is refused.", "quantifier": "for all mirrors (masks, influence functions, matrices from modes to commands), pupils, first modes, command vectors and measurements of the plate scale", "why_tests_cant": "The function is not tested; the test of LinearCombination uses zeros as coefficients. Neutrality on axis is a property of two classes together, for all commands.", "anchors": ["specula/lib/platescale_coeff.py:5-125", "specula/processing_objects/linear_combination.py:35-69"]}
{"id": "C109", "title": "Histories shown by the displays", "statement": "PlotDisplay, PlotVectorDisplay and DataPlotter show the last histlen values of each input, or of each element chosen, against the last histlen times, for any number of updates; with iterations on the x axis the updates are numbered from 1 (histlen at least 2). The elements plotted by PlotVectorDisplay exist, are at most max_elements, and explicit indices that exist are kept in order. Not as expected, for PlotDisplay: an update that raises leaves its time on the x axis, so after k such updates each line has k more times than values for ever; lines present when an update raises are never on the axes again, so the display stays empty; when the first value is not a scalar all following updates raise as well.", "quantifier": "for all histlen >= 1, numbers of inputs, sequences of values and times, positions of the updates that raise, selections of elements", "why_tests_cant": "The displays are not tested beyond being created; the scrolling and the state left by errors show up only over long sequences.", "anchors": ["specula/display/plot_display.py:54-155", "specula/display/plot_vector_display.py:139-270", "specula/display/base_display.py:58-104", "specula/display/data_plotter.py:85-99"]}
{"id": "C110", "title": "Answers of the display server", "statement": "Each readable request to the display server is answered in order, with one terminator at its end. In image mode the answer has the objects that exist and can be prepared; in data mode it has every name asked for, without a value for the others. A request that cannot be read is skipped in image mode; in data mode it stops the trigger, and the following requests are answered at the next triggers. Every iteration is counted in exactly one report of the speed. Sending objects, also repeated ones, leaves their attributes as they were. Between the two threads that share the queue nothing is lost or repeated under any interleaving. Not as expected: the order is not kept, a client can be told that its request is done before its data arrive; and when pickling fails an object of the simulation that is on the CPU is left without xp and np.", "quantifier": "for all sequences of requests, outcomes of the objects, times of the triggers, lists of objects, and interleavings of any length of the two threads with the simulation", "why_tests_cant": "The interleavings of two threads on one queue cannot be enumerated by tests, and the server is tested with one client and objects that pickle.", "anchors": ["specula/processing_objects/display_server.py:79-228", "specula/processing_objects/display_server.py:346-380", "specula/lib/display_server_api.py:202-279"]}
{"id": "C111", "title": "Spot monitor", "statement": "For square subapertures inside the frame the summed image of SpotMonitor is, pixel by pixel, the sum of the subapertures, and its flux is theirs; an index after the frame raises. The first estimate of the sky uses every border pixel once and lies between a and b whenever more than half of the border pixels do; the first amplitude is positive and with the sky reaches the brightest pixel. fwhm is the full width at half maximum of the fitted Moffat profile. After a fit model plus residuals is the summed image and chi2 is zero exactly when they agree; a fit that raises gives the first estimate with success 0. Not as documented: success is 1 whether or not the fit converged.", "quantifier": "for all frames, sizes and lists of subapertures, fitted parameters, outcomes of the fit", "why_tests_cant": "Tests fit a few synthetic spots; the sums, the robustness of the sky and the meaning of fwhm hold or fail for all frames and parameters.", "anchors": ["specula/processing_objects/spot_monitor.py:114-238", "specula/lib/utils.py:123-135"]}
{"id": "C112", "title": "Slope nulls and printed values", "statement": "SnCalibrator saves the mean of the slopes of all frames (static slopes are their own null), and raises when there was no frame. DataPrint prints at the first trigger and then, with triggers at regular times, every m of them, m being the least number of steps covering print_dt; at any times two prints are at least print_dt apart.", "quantifier": "for all numbers of frames and slopes, intervals, steps and trigger times", "why_tests_cant": "Tests use a few frames and one interval.", "anchors": ["specula/processing_objects/sn_calibrator.py:51-66", "specula/processing_objects/data_print.py:31-102"]}
{"id": "C113", "title": "Zernike influence functions", "statement": "compute_zern_ifunc gives the polynomials after piston without the first start_mode; each mode has mean zero and root mean square one on the mask, and mode i is a combination of the polynomials up to i and a piston. When the polynomials have mean zero on the mask the modes are orthogonal. Not in general: the means are removed after the orthogonalisation, and two modes are orthogonal exactly when one of the two orthonormal vectors had mean zero (tip and tilt on a mask of three pixels have correlation -1/2). Removing the means first would give orthogonal modes on every mask.", "quantifier": "for all masks, numbers of modes and polynomials that are independent on the mask, and all QR decompositions of them", "why_tests_cant": "Tests look at a few masks; whether the modes are orthogonal depends on the mask.", "anchors": ["specula/lib/compute_zern_ifunc.py:6-32", "specula/lib/utils.py:138-169"]}
{"id": "C114", "title": "Interactive pupil calibrator", "statement": "DynamicPyrPupdataCalibrator uses values refreshed at an iteration from that iteration on and keeps the others; each measurement is of the sum of the frames since the last successful one, at multiples of dt; a refused measurement leaves the pupils and their time. Not as documented: a value that is not a number stops the simulation, as do an interval of zero and the default dt=None; the frames of a refused measurement stay in the next one; and the status is OK again one frame after a failure, without a measurement.", "quantifier": "for all sequences of frames, intervals, thresholds, interactive values and outcomes of the measurement", "why_tests_cant": "Tests call prepare_trigger and trigger_code once and never post_trigger; the state after failures shows only over sequences of frames.", "anchors": ["specula/processing_objects/dynamic_pyr_pupdata_calibrator.py:122-174", "specula/processing_objects/pyr_pupdata_calibrator.py:147-193"]}
{"id": "C115", "title": "Influence functions of the ELT segments", "statement": "ELTM1IFuncCalculator gives three rows for each segment of the map, in the order piston, tip, tilt. Each row is zero outside its segment and has rms one on it; tip and tilt have no piston; rows of different segments are orthogonal, and every rigid motion of a segment is a combination of its three rows. The map is read at the pixel nearest to a n / dim. Not in general: tip and tilt of one segment are orthogonal only if its pixels are not correlated in the two directions; a segment with pixels in one row (column) only has a tip (tilt) of NaN; a segment lost in the reduction of the map has three rows of zeros; the points that are read are not centred, so a symmetric map does not stay symmetric; and more than twice the size of the map raises.", "quantifier": "for all maps of segments, sizes of the map and of the pupil", "why_tests_cant": "Which segments lose their pixels, or keep them in one row, depends on the size requested; tests use one size.", "anchors": ["specula/lib/ELT_M1_ifunc_calculator.py:27-79"]}
{"id": "C116", "title": "Files of the calibrators", "statement": "Without overwrite no calibrator ever changes a file that exists, even if it fails halfway, and no calibrator changes files other than its own. RecCalibrator, ImCalibrator and SnCalibrator test at construction the very file they write at the end, whether the name has its extension or not; with a name without slash and a data_dir that is not empty a calibration that was accepted is saved. MultiRecCalibrator, in an absolute directory that exists, writes each reconstructor to its own file, provided the name of the full reconstructor is not that of a sensor with its number. Not in general: sub-apertures, pupils and dark frames are not tested before the end; an empty data_dir fails at the end; a name with a subdirectory loses a reconstructor or interaction matrix (the slope null makes the directory); MultiRecCalibrator joins data_dir twice, so in a relative directory it writes another file than the one tested, and makes the directory after the first files.", "quantifier": "for all contents of the disk, directories, names, numbers of sensors and values of overwrite", "why_tests_cant": "Tests use one absolute temporary directory that exists; what is lost shows only at the end of a calibration, for particular names and directories.", "anchors": ["specula/processing_objects/rec_calibrator.py:58-99", "specula/processing_objects/multi_rec_calibrator.py:25-96", "specula/processing_objects/im_calibrator.py:41-52", "specula/processing_objects/sn_calibrator.py:23-66", "specula/processing_objects/sh_subap_calibrator.py:30-75"]}
{"id": "C117", "title": "Values given while the simulation runs", "statement": "SpeculaInput: for every interleaving of additions to the queue and triggers, an output has the value of the last pair with its name that was taken and the time of the trigger that took it; pairs are taken in order, once, and none is lost; unknown names have no effect; a trigger refreshes exactly the outputs for which it took a pair. When the queue has been emptied the values do not depend on when the triggers came. Of several values for one output taken together only the last is seen. TerminalInput sends one word with False (except help), two words as name and text, and refuses other lines; a value cannot contain blanks.", "quantifier": "for all sequences of additions and triggers, numbers of pairs found by each trigger, names and values; all lines", "why_tests_cant": "The task that reads the input is another process: the interleaving cannot be chosen by a test.", "anchors": ["specula/processing_objects/specula_input.py:29-70", "specula/processing_objects/terminal_input.py:43-72"]}
{"id": "C118", "title": "Interaction matrix inside the pyramid's mis-registration estimator", "statement": "SprintPyr computes an interaction matrix from its own copy of mirror, pyramid and slope computer. If the mirror uses its influence functions from the first with the default sign and no m2c, and the slope computer has neither threshold nor norm_factor, the matrix for given mis-registration parameters is exactly the one that pushes and pulls of push_amp on the real system with those parameters would give, whatever the brightness of the source; its columns are the linear part of the slopes, without offset or curvature. The matrix depends on the parameters only: not on earlier computations, not on the brightness of the copy. Not in general: sign, start_mode and thr_value of the given objects are not copied, so all columns have the wrong sign, belong to other modes, or differ.", "quantifier": "for all influence functions, sensors, pupils, modes, amplitudes, brightnesses, parameters and sequences of earlier computations", "why_tests_cant": "A test compares a few entries for one mirror with default settings and one call.", "anchors": ["specula/processing_objects/sprint_pyr.py:122-205", "specula/processing_objects/sprint_pyr.py:207-295"]}
{"id": "C119", "title": "Device, precision and copies of arrays", "statement": "Objects made without explicit device and precision get the precision of the init() call in force when the package was first imported, and its device if cupy is there and SPECULA_DISABLE_GPU is unset or exactly FALSE, else the CPU; no later init() changes this, and if the import came before init() such objects can never be made. A device and precision asked for explicitly are honoured or refused, never replaced. to_xp never changes an existing array; its result is the caller's own array exactly if that is on the right device with the type asked for and no copy was asked for; the values are converted to the type asked for, but a forced copy without a type is always in double precision. A BaseValue always holds the value set last as it was at that moment, in its own type, whatever users do with their arrays before and after, and always in the same array once it has one; a TimeHistory or Recmat shares the array of its owner.", "quantifier": "for all machines, sequences of init calls and imports, arrays, types, memory contents and sequences of settings and writes", "why_tests_cant": "Tests run one machine with one init per process, and compare values, not memory that is shared later.", "anchors": ["specula/__init__.py:42-149", "specula/base_time_obj.py:5-48", "specula/base_value.py:7-37"]}
{"id": "C120", "title": "Inputs that come from an object on another device", "statement": "A reader on another device than the data object that it reads has, whenever it reads, the generation time of the object and, of every attribute that is an array, the last array that it read, on its own device, also if the attribute was unset at first - provided the object does not get new attributes and the arrays keep their shape. Attributes that are not arrays stay as they were at the first reading. A reader on the same device reads the object itself. A new array attribute makes reading fail; so does a change of shape, except between two GPUs, where the old array is kept with the new time.", "quantifier": "for all data objects, attributes, devices and sequences of states in which the object is read", "why_tests_cant": "Needs two devices and a history of states; a test copies one object once.", "anchors": ["specula/connections.py:55-74", "specula/base_data_obj.py:36-135"]}
{"id": "C121", "title": "Interaction and reconstruction matrices from mis-registration parameters", "statement": "After any sequence of triggers, the interaction matrix of ImShSynimGenerator is the one of the last parameters (perfect registration if the input is not connected): column k is the slopes of mode k with these parameters for an amplitude of unit root mean square, not for a unit command. Hence its reconstruction matrix, applied to the slopes of the mirror, gives each command times the root mean square of its influence function - the commands themselves only for modes of unit root mean square. The outputs depend on the last parameters only. The reconstruction works exactly without mmse and for not more modes than the mirror has, else every trigger raises. The subapertures given to SynIM are in the order of the slopes.", "quantifier": "for all mirrors, sensors (linear in the amplitude), parameters, numbers of modes and sequences of triggers", "why_tests_cant": "Tests check shapes for one mirror with normalised modes, and need SynIM.", "anchors": ["specula/processing_objects/im_sh_synim_generator.py:199-354", "specula/data_objects/ifunc.py:152-167", "specula/data_objects/intmat.py:175-183", "specula/data_objects/recmat.py:36-43"]}
{"id": "C122", "title": "Images on the screen", "statement": "A crop given as slice shows exactly the pixels of the window of its bounds, counted from the end if negative and moved to the border if outside, the same in both displays. A crop given by its centre shows the pixels of the window inside the image, if the window does not end left of or above the image; if it ends k pixels left of it, all columns but the last k are shown. In logarithmic scale every frame that is not empty is shown over a positive range of at least the ratio: values from the lower end on as they are, the darker ones as the lower end; a positive smallest value below the ratio becomes the lower end. A PSF shown with a ratio of peak to valley has exactly the range from the peak divided by the ratio to the peak. In linear scale the displays of PSF, phase and pixels with pupils use the range of the frame shown, the pixel display that of the first frame for ever. A Shack-Hartmann frame shown like that of a pyramid has the light of the four quadrants, which add up to that of the subaperture; subapertures of odd side raise.", "quantifier": "for all images, crops, ratios and sequences of frames", "why_tests_cant": "The displays are not tested beyond not raising; crops at and beyond the borders, dark frames and long sequences are too many to look at.", "anchors": ["specula/display/pixels_display.py:67-176", "specula/display/pixels_pup_display.py:52-192", "specula/display/psf_display.py:30-72", "specula/display/base_display.py:94-98"]}
{"id": "C123", "title": "Rejection and noise transfer functions", "statement": "RTF and NTF return, at every frequency, the modulus of 1/(1+CP) and of CP/(1+CP) with the controller and the plant evaluated on the unit circle, infinite exactly where the closed loop denominator is below the threshold; the complex values add up to one; at a pole of the controller the first is zero and the second one. For the plant discrete_delay_tf(d+1) they tell what the simulated loop with a delay of d frames does: if it is stable, a sinusoidal disturbance of any amplitude and phase leaves, after the transient, a residual with the amplitude multiplied by RTF and a command with the amplitude multiplied by NTF.", "quantifier": "for all filters, plants, frequencies, delays (fractional too), amplitudes and phases", "why_tests_cant": "Tests compare a few values or shapes; the relation with the simulated loop is a limit over unbounded time.", "anchors": ["specula/data_objects/iir_filter_data.py:193-402", "specula/processing_objects/iir_filter.py:73-102", "specula/processing_objects/base_filter.py"]}
{"id": "C124", "title": "Poles and resonances reported for a filter", "statement": "get_poles gives the real parts of the reciprocals of the poles of the transfer function in z, so for real poles a stable filter is reported with all poles outside of the unit circle; it raises if there are poles in zero, unless exactly one other is left, whose reciprocal is then reported for all. set_poles builds the filter that has the reciprocals as poles, and get_poles then gives the values set. resonance_frequency returns the frequency, of those given, where the closed loop denominator is smallest, and the reciprocal of its modulus. stability_analysis looks for the resonance with 0.99 times the largest stable gain times the gain of the filter, which is the gain announced only for filters of gain one.", "quantifier": "for all filters, delays, gains and frequency vectors", "why_tests_cant": "The test of get_poles expects the reciprocals for two first order filters, against its own comment; the relation with the transfer function of all filters is not tested.", "anchors": ["specula/data_objects/iir_filter_data.py:92-103", "specula/data_objects/iir_filter_data.py:147-157", "specula/data_objects/iir_filter_data.py:607-742"]}
{"id": "C125", "title": "Filters exchanged with the control library", "statement": "The object made by to_control_tf has the transfer function of the filter at every z other than zero, and is made exactly if the denominator is not zero. Filters with as many numerator as denominator coefficients and leading coefficients other than zero, converted together by to_control_tf_list and back by from_control_tf, keep their places and their transfer functions. In general a filter made by from_control_tf has as many coefficients above as below and the transfer function of the object multiplied by z to the difference of the numbers of coefficients of denominator and numerator: it is right if they are equal and another function if the numerator is shorter.", "quantifier": "for all filters, lists of objects and points z of the complex plane", "why_tests_cant": "A conversion is right only if the transfer functions agree everywhere, for all orders mixed in one list; tests compare the coefficients of a few filters.", "anchors": ["specula/data_objects/iir_filter_data.py:990-1093"]}
{"id": "C126", "title": "Minimum mean square error reconstructors from interaction matrices", "statement": "Intmat.generate_rec_mmse returns the reconstructor with the smallest mean square error for the turbulence projected on the first nmodes modes (the influence functions, or their combinations given by m2c) and the noise given: one variance as a number, or as list or array with one element; one variance for each slope as a list; a covariance matrix. The modes must be linearly independent; fewer modes than columns used raise. Lists and matrices of another size raise. One variance for each slope given as an array never makes a reconstructor. RecCalibrator with mmse does the same with the pupil of its mirror, but a list of two or more with a number in it always raises, and so does no noise.", "quantifier": "for all interaction matrices, bases, noises and competing reconstructors", "why_tests_cant": "The only test checks the type of the result for an identity matrix and unit noise; optimality compares with all other matrices.", "anchors": ["specula/data_objects/intmat.py:185-245", "specula/processing_objects/rec_calibrator.py:44-95", "specula/lib/mmse_reconstructor.py", "specula/lib/modal_base_generator.py:71-176"]}
{"id": "C127", "title": "Display of modes", "statement": "After every vector with some values, whatever vectors and changes of range came before, ModesDisplay shows exactly that vector; the horizontal limits are the range last asked for or all indices; the vertical ones the range last asked for or, if that is zero, ten percent beyond the extreme values. A range asked for while a vector is shown is used at once and leaves the line. The automatic limits contain all values exactly if one is not above zero and one not below. An empty vector raises exactly in automatic mode and leaves the vertical limits.", "quantifier": "for all sequences of vectors and changes of range", "why_tests_cant": "What is shown depends on the whole history of vectors and ranges.", "anchors": ["specula/display/modes_display.py:10-89"]}
