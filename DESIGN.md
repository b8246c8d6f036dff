# Formal model of SPECULA: design

## Layout

* `properties.jsonl` – the English properties (C01 …).
* `lean/Verif/Model/*.lean` – executable model of the code, function by function; every definition cites
  the file and lines of `/repo` it models and says where it simplifies.
* `lean/Verif/Spec/*.lean` – small specifications written without the model's helpers.
* `lean/Verif/Lemmas/*.lean` – helper lemmas (not properties).
* `lean/Verif/Props/Cxx*.lean` – the property theorems, each with an example that meets its hypotheses.
* `MANIFEST.json` – property → theorem names and status. `seeded/LOG.jsonl` – seeded-bug experiments.

## Trusted base

* Lean 4.33.0's kernel; the axioms `propext`, `Classical.choice`, `Quot.sound` and nothing else (no own axioms,
  no `sorry`, no `native_decide`, no `bv_decide`). `AXIOMS.md` lists the axioms of each theorem (written by `tools/axioms.py`). Mathlib 4.33-compatible modules are used as ordinary proved libraries.
* The correspondence between the Python text and the Lean definitions: by reading, cited line by line. The code is
  not executed (no dependencies available), so nothing is checked by differential testing.
* The English → theorem reading.

## General modelling conventions

* A Python dictionary is an association list in insertion order (`List (String × α)`); the theorems that need it
  assume the keys are distinct (true of every Python dict).
* A raised exception is `Except.error`/`none`; Python mutation is a new state.
* Times are `Int` nanosecond ticks, as in the code (`_time_resolution = 1e9`).
* Real arithmetic is exact (a commutative ring / (linearly ordered) field, or ℚ); floating point rounding is *not*
  modelled, except where it is the subject (C26, C27, C37 grid of `toccd`, C44 square roots, C54): binary rounding to nearest even of a
  given precision is then defined on ℚ (`Model/Float`), without overflow and subnormals.
* numpy arrays are functions on `Fin n`, lists or Mathlib matrices. Broadcasting, dtype and device (GPU/CPU) are not
  modelled. Random number generators, display code, YAML/FITS encodings (as bytes) and CUDA graphs are not modelled. The discrete Fourier transform
  of C46 is the exact sum over ℂ; the FFT algorithm is not modelled.
* When the English property is false of the code as written, the model keeps the code's behaviour, the negation is
  proved with a concrete witness, the English property is restated with the natural proviso, and the disagreement is listed
  below under *Where the code disagrees*.

## Per-property plan (written before the proofs)

Configuration and scheduling (`Model/Params`, `Model/TriggerOrder`, `Model/BuildOrder`, `Model/Combine`, `Model/Replay`)

* C01, C02, C03, C04 – model `split_output` results as references (owner, key, delay, alias); `is_leaf`,
  `has_delayed_output`, `remove_inputs`, and the two nested loops of `build_trigger_order` exactly (including the dictionary
  that shrinks while iterating, the error when no progress is made, and the warning-only leftovers). Prove by an invariant
  on the loop: removed names = ordered names; remaining inputs = original inputs minus those owned by removed names.
  Soundness (C01, C02), no duplicates + completeness by well-foundedness (C03), cycles (C04) by infinite descent.
  Known deviation: positive delays are treated by `is_leaf` as "not current"; C01 assumes delays ≤ 0.
* C05, C06 – model objects as arbitrary state machines (trigger, post-trigger, state-dependent output), memory as one
  current value per object (references are shared, so a read is a read of the producer's current state), `LoopControl.iter`
  bucket by bucket (check all, trigger all, post-trigger all). Spec: equations of synchronous dataflow. Prove refinement
  for every trigger order accepted by C01/C02 constraints, then order independence as uniqueness of the spec's solution.
  Suspected deviation: a delayed consumer placed in the *same* bucket as its producer that reads its input in
  post_trigger sees the new value; to be stated as counterexample + partial theorem.
* C07 – model `build_order` DFS with fuel (Python recursion); prove topological order and completeness.
* C08, C09, C10 – association-list models of `remove_inputs`, `combine_params`, `apply_overrides`; frame theorems.
* C11 – model on `List Char` of `str.split` unpacking; round trip with printer.
* C12, C13 – model `build_replay`, `build_targeted_replay`. C12 is false for list inputs and delayed references
  (the code prints a TODO): counterexamples + partial. C13 closure by DFS invariant.

Distribution (`Model/Ranks`, `Model/Mpi`)

* C14 – placement predicate and `connect` roles on every rank; theorem over all ranks.
* C15 – per-link event trace of start/setup/iter/finish on both sides; counts and FIFO matching. `niters` disagrees with
  the real number of iterations when `t0 ≠ 0` or run_time is not a multiple of dt: counterexample + partial.
  List outputs send one message per item but only one is received: counterexample.
* C16 – two-party automaton for pickle/buffer selection.
* C17 – false for any hash (pigeonhole): proved as impossibility, plus injectivity of the hashed text for names without '%'.

Loop and protocol (`Model/Loop`, `Model/Protocol`, `Model/Inputs`)

* C18 – loop with explicit termination; iteration times; `niters` disagreement.
* C19, C20, C21 – protocol automaton; chains by induction; nested lists as rose trees.

Time series objects (`Model/Integration`, `Model/Buffer`, `Model/Store`, `Model/Playback`)

* C22–C26 – state machines over input histories; refinement to list functions (windows, chunks, every-N selection).
  C25 is false as stated because of the extra trigger in `finalize` and the unsaved trailing chunk: counterexamples + partial.
  C26 pickle time stamps are stored in the floating dtype: counterexample (binary32) + exactness theorem for FITS.
* C27 – binary64 rounding on ℚ; `int(round(s,9)*1e9)` truncates: error bound theorem and counterexample.

Control (`Model/Filter`, `Model/Reconstruct`, `Model/PushPull`, `Model/GainOpt`)

* C28–C36 – exact arithmetic over a (linearly ordered) field; state machines refined to closed forms / difference equations.

Images and geometry (`Model/Resample`, `Model/PyrSlopes`, `Model/ShSlopes`, `Model/Select`, `Model/Dm`, `Model/EField`, `Model/Atmo`, `Model/Zernike`, …)

* C37–C47 – finite sums over index types, exact arithmetic.

Data objects and names

* C48 – headers/HDU lists as records; round trips per class; classes whose restore is wrong get counterexamples.
* C49, C50 – string functions on `List Char`.

## Modelled

| Model file | Code | Properties |
|---|---|---|
| `Params`, `TriggerOrder` | simul.py 202-276, 861-885 | C01–C04 |
| `Loop` | loop_control.py, trigger protocol of base_processing_obj.py, connections.py | C05, C06 |
| `BuildOrder` | simul.py 284-309 | C07 |
| `Combine` | simul.py 861-934 | C08–C10 |
| `SplitOutput` | simul.py 129-171 | C11 |
| `Replay` | simul.py 717-859 | C12, C13 |
| `Ranks`, `Mpi`, `Wire`, `Tag` | simul.py 69-72, 361-387, 616-711; loop_control.py 70-167; base_processing_obj.py 91-104, 155-206, 259-273; connections.py 31-74; base_data_obj.py 35-110 | C14–C17 |
| `LoopControl` | loop_control.py (times) | C18 |
| `Protocol`, `Inputs` | base_processing_obj.py 62-89, 233-257; connections.py; lib/utils.py 344-359 | C19–C21 |
| `Integration` | ccd.py 123-131, 247-263; windowed_integration.py | C22, C23 |
| `Buffer`, `Store`, `Playback` | data_buffer.py, data_store.py, data_source.py | C24–C26 |
| `Float` | base_time_obj.py 20, 72-76 | C27 |
| `Filter` | base_filter.py, iir_filter.py, integrator.py, ssr_filter.py; iir_filter_data.py and ssr_filter_data.py (builders) | C28–C32 |
| `Reconstruct` | modalrec.py 131-208, modalrec_implicit_polc.py | C33 |
| `PushPull` | modal_pushpull_signal.py 87-126, push_pull_generator.py, im_calibrator.py 160-202 | C34 |
| `GainOpt` | gain_optimizer.py, optical_gain_estimator.py | C35, C36 |
| `Resample` | rebin.py, toccd.py (CPU) | C37 |
| `PyrSlopes`, `ShSlopes` | pyr_slopec.py, sh_slopec.py 182-303 | C38, C39 |
| `Select` | base_slicer.py, base_inserter.py | C40 |
| `Dm` | dm.py 96-179 | C41 |
| `EField`, `Interp`, `Atmo` | electric_field.py, electric_field_combinator.py, atmo_propagation.py, interp2d.py, atmo_evolution.py | C42, C43, C53 |
| `Zernike`, `Radial` | zernike_generator.py (indices), radial_profile.py | C44, C45 |
| `Psf`, `PsfGeom` | calc_psf.py, psf.py | C46, C54 |
| `DarkCal` | dynamic_dark_calibrator.py 92-208 | C47 |
| `Fits` | save/restore of data_objects/*.py | C48 |
| `Names` | calib_manager.py, lib/utils.py 10-84 | C49, C50 |
| `SlopeVec`, `SlopeRotate` | slopes.py, slopec.py 44-58, 132-151 | C51, C52 |
| `Stability` | iir_filter_data.py 404-534 and the one-mode closed loop | C55 |
| `Multirate` | modalrec_multirate.py, multirate_complementary_filter.py | C56, C57 |
| `Operation` | base_operation.py, mirror_commands_combinator.py, linear_combination.py | C58, C59 |
| `Generators` | `specula/processing_objects/schedule_generator.py`, `time_history_generator.py`, `wave_generator.py`, `base_generator.py`; amplitudes of `random_generator.py` | C60 |
| `Demod` | `specula/lib/demodulate_signal.py`, `specula/processing_objects/demodulator.py`, `optical_gain_estimator.py` | C61, C62 |
| `Infinite` | `specula/data_objects/infinite_phase_screen.py` (stencils, lines), `specula/processing_objects/atmo_infinite_evolution.py`, `atmo_infinite_evolution_up_down.py` | C63, C64 |
| `Unwrap` | `specula/processing_objects/modal_analysis.py` `unwrap_ls` | C65 |
| `Modal` | `specula/processing_objects/modal_analysis.py` (rest), `phase_flattening.py`, `specula/data_objects/ifunc_inv.py` `cut_modes` | C66, C67 |
| `Mmse` | `lib/mmse_reconstructor.py` | C68 |
| `MultiCal` | `processing_objects/multi_im_calibrator.py`, `data_objects/intmat.py` (sizes, `build_from_slopes`, `generate_rec`), `processing_objects/mvm.py` | C69, C70 |
| `Extrap` | `lib/extrapolation_2d.py` (CPU code), `lib/interp2d.py` 114-236 without given coordinates | C71, C72 |
| `Ccd` | `processing_objects/ccd.py` (gains, `apply_binning`, `apply_qe`, `apply_noise`); random generators as arbitrary functions, exact arithmetic | C73 |
| `SubapCal` | `processing_objects/sh_subap_calibrator.py` 76-123, `data_objects/lenslet.py` 31-49, `data_objects/subap_data.py` 63-66 | C74 |
| `PupCal` | `processing_objects/pyr_pupdata_calibrator.py` (pupils, indices, order), `data_objects/pupdata.py` 84-112; without the detection of the obstruction | C75 |
| `Sh` | `processing_objects/sh.py` 176-380, 450-521, 534-575; `processing_objects/distributed_sh.py` 38-137; `data_objects/lenslet.py` | C76 |
| `ModPyr` | `lib/calc_geometry.py`; `processing_objects/modulated_pyramid.py` 208-235, 306-370, 457-541, 548-632 | C77 |
| `FieldAna` | `field_analyser.py` 79-168, 265-397, 511-739 (names, cache, connection of results); `simul.py` 129-171, 311-332 | C78 |
| `Masks` | `lib/make_mask.py`; `lib/make_xy.py` 141-177; `lib/mask.py` 120-132, 360-379; `lib/compute_petal_ifunc.py`; `data_objects/pupilstop.py` 45-55 | C79, C80 |
| `PixSlopes` | `processing_objects/cur_wfs_slopec.py`; `processing_objects/zwfs_slopec.py`; `processing_objects/double_roof_slopec.py`; `data_objects/slopes.py` 143-191 | C81 |
| `Cube` | `data_objects/spatio_temp_array.py`; `processing_objects/phase_screen_cube.py` | C82 |
| `PolyChrom` | `processing_objects/poly_chrom_wfs.py` | C83 |
| `Photometry` | `lib/n_phot.py`; `data_objects/source.py` 149-165 | C84 |
| `Refraction` | `lib/air_refraction.py`; `processing_objects/atmo_propagation.py` 317-470 (chromatic shifts) | C85 |
| `Fresnel` | `processing_objects/atmo_propagation.py` 172-238, 265-275, 306-309 (physical propagation) | C86 |
| `Vibration` | `processing_objects/vibration_generator.py`; `lib/utils.py` 188-224 (`psd_to_signal`) | C87 |
| `Coronagraph` | `processing_objects/abstract_coronagraph.py`; masks of `lyot_`, `four_quadrant_`, `vortex_`, `apodizer_coronagraph.py` and `focal_plane_filter.py`; `lib/utils.py` 274-338 | C88 |
| `PerfectCoro` | `processing_objects/psf_coronagraph.py` | C89 |
| `ExtSource` | `processing_objects/extended_source.py` (without sources from an image); fluxes and batches of `processing_objects/ext_source_pyramid.py` | C90 |
| `LgsKernel` | `data_objects/convolution_kernel.py`; `data_objects/gaussian_convolution_kernel.py`; `processing_objects/sh.py` 431-447, 472-482 | C91 |
| `IdealDer` | `processing_objects/ideal_derivative_sensor.py` | C92 |
| `Sprint` | `processing_objects/base_sprint_estimator.py`, `lib/synim_utils.py` (arguments), phase of `lib/demodulate_signal.py` | C93 |
| `Lift` | `processing_objects/lift.py` (without the construction of modes and the check of tip and tilt) | C94 |
| `Ciao` | `processing_objects/ciao_ciao_sensor.py`, `processing_objects/ciao_ciao_slopec.py` (without unwrapping and the preparation of the mask) | C95 |
| `Curvature` | `processing_objects/curvature_sensor.py` | C96 |
| `PyrProp` | `processing_objects/modulated_pyramid.py` 262-288, 368-591 (propagation; without defects of edges and tip) | C97 |
| `RoofSpot` | `processing_objects/zernike_sensor.py`, `processing_objects/modulated_double_roof.py` 82-228 (without defects of edges and tip) | C98 |
| `DynFilter` | `processing_objects/dynamic_integrator.py` 79-94, `processing_objects/dynamic_iir_filter.py` 70-85, on top of `Filter` | C99 |
| `LowPass` | `data_objects/iir_filter_data.py` 853-973, `processing_objects/low_pass_filter.py` 8-40, on top of `Filter` and `Stability` | C100 |
| `Slaving` | `lib/compute_zonal_ifunc.py` 80-377 without the spline itself | C101 |
| `PhaseScreen` | `lib/calc_phasescreen.py`, `lib/calc_spatialfrequency.py` | C102 |
| `RandomPhase` | `processing_objects/atmo_random_phase.py`, `lib/phasescreen_manager.py`, `processing_objects/atmo_evolution_up_down.py` | C103 |
| `LocalMean` | `lib/utils.py` 227-271 (`local_mean_rebin`), `processing_objects/atmo_propagation.py` 248-263, 501-507 | C104 |
| `Elong` | `lib/calc_noise_cov_elong.py` (without the fits of images) | C105 |
| `ModalBase` | `lib/modal_base_generator.py` | C106 |
| `Fsoc` | `lib/fsoc_lib.py`, `processing_objects/power_loss.py`, `processing_objects/electric_field_reflection.py` | C107 |
| `PlateScale` | `lib/platescale_coeff.py` | C108 |
| `History` | `display/plot_display.py`, `display/plot_vector_display.py`, `display/base_display.py` (errors), `display/data_plotter.py` (`plot_history`) | C109 |
| `DispServer` | `processing_objects/display_server.py`, `lib/display_server_api.py` (the threads), `base_data_obj.py` (`copyTo`) | C110 |
| `SpotMon` | `processing_objects/spot_monitor.py`, `processing_objects/sn_calibrator.py`, `processing_objects/data_print.py` (times) | C111, C112 |
| `ZernIfunc` | `lib/compute_zern_ifunc.py`, `lib/utils.py` (`make_orto_modes`) | C113 |
| `DynPup` | `processing_objects/dynamic_pyr_pupdata_calibrator.py`, `processing_objects/pyr_pupdata_calibrator.py` (integration) | C114 |
| `EltM1` | `lib/ELT_M1_ifunc_calculator.py` | C115 |
| `CalFiles` | `processing_objects/rec_calibrator.py`, `multi_rec_calibrator.py`, and the files of `im_calibrator.py`, `sn_calibrator.py`, `sh_subap_calibrator.py`, `pyr_pupdata_calibrator.py`, `dynamic_dark_calibrator.py` | C116 |
| `LiveIn` | `processing_objects/specula_input.py`, `processing_objects/terminal_input.py` | C117 |
| `SprintPyr` | `processing_objects/sprint_pyr.py` | C118 |
| `Device` | `__init__.py` (`init`, `to_xp`), `base_time_obj.py`, `base_value.py` (arrays) | C119 |
| `DevLink` | `connections.py` (local `_InputItem.get`), `base_data_obj.py` | C120 |
| `ImGen` | `processing_objects/im_sh_synim_generator.py`, `data_objects/ifunc.py` (`ifunc_2d_to_3d`), `data_objects/recmat.py` (`set_value`) | C121 |
| `ImageView` | `display/pixels_display.py`, `display/pixels_pup_display.py` (image), `display/psf_display.py`, `display/base_display.py` 94-98 | C122 |
| `LoopTf` | `data_objects/iir_filter_data.py` 193-402 (`RTF`, `NTF`, `frequency_response`), on top of `Stability` | C123 |
| `Poles` | `data_objects/iir_filter_data.py` 92-103, 147-157, 607-742, on top of `LoopTf` | C124 |
| `CtrlTf` | `data_objects/iir_filter_data.py` 990-1093, on top of `LoopTf` and `LowPass` | C125 |
| `MmseGen` | `data_objects/intmat.py` 185-245 (`generate_rec_mmse`), `processing_objects/rec_calibrator.py` 44-53, 84-95, on top of `Mmse` and `ModalBase` | C126 |
| `ModesView` | `display/modes_display.py` | C127 |
<!-- more rows -->

## Where the code disagrees

Found while proving (the theorem that shows it is in brackets) or while reading (no theorem).

Scheduling, loop, distribution
* An object with a positive delay reference is ordered as if delayed [`C01_positive_delay_counterexample`]; a delayed consumer that reads its
  input in `post_trigger` sees the new value [`C05_post_trigger_counterexample`].
* `niters` differs from the number of iterations when `t0 ≠ 0` or the run time is not a multiple of the step; list outputs are sent item by item
  but received once; message tags can collide (any hash into a finite range does).
* An unaligned `start_time` of a detector never fires; a stale input merges two detector windows.

Time and storage
* `seconds_to_t` can be one tick low (65 µs → 64999 ticks), so valid multiples are rejected.
* Single precision pickle files lose time stamps on replay; `DataStore.finalize` stores an extra sample when downsampling; the last chunk of
  split files is lost; `split=1` stores duplicates.

Control
* The output of filters with an integer delay is a view of the internal buffer [`C28_early_view`].
* `set_gain` with a zero leading coefficient erases the numerator [`C31_zero_gain_*`]; the state-space output with the old state is one step late.
* `Modalrec` with POLC and `in_commands_list` reads a non-existing attribute; with `projmat=None` it fails; the implicit version outputs also when only the
  commands were refreshed.
* Push-pull: the balance condition on the pattern is Σ1/p = 0, not Σp = 0; negative mode indices wrap; `min_amplitude` caps from above;
  `MultiImCalibrator` does not check that the slopes are new.
* `GainOptimizer` publishes ones above `gmax` at the first iteration; the safety factor compounds; the running mean of the PSD is never updated.
* The optical gain estimate is not limited to 1.
* `is_stable` reads numerator and denominator as polynomials of z; if their lengths differ this is not the simulated filter and a diverging loop is
  accepted [`C55_length_mismatch`].

Images
* `rebin2d` rejects wide frames; the float grid of `toccd` is wrong for output sizes 49, 98, 103, 107, 147, 161, 187, 196, 197;
  some non-square frames are rejected; `set_total` is ignored when the shape does not change.
* Pyramid slopes are NaN without flux; `shlike=True` is unusable; a padded list of pixels fails unless exactly one is valid.
* A fully dark Shack-Hartmann frame gives NaN although single dark sub-apertures give 0; the `thr_ratio` branch has a wrong shape.
* `BaseSlicer` raises for `[a:-b]`, computes a wrong size for negative steps, and outputs a scalar for one index.
* The slope filter needs a slopes-by-modes matrix, against the documented layout; odd slope vectors lose their last element when interleaved;
  slope rotations with flips do not add.
* A DM keeps old entries when the command is shorter [`C41_shorter_keeps_old`].
* `ElectricField.reset` multiplies by zero, so NaN stays [`C42_not_finite_for_ever`]; a layer 1–2 pixels smaller than the pupil broadcasts its last pixel
  [`C42_small_layer`]; `mergeLayersContrib=False` always fails; the combinator resizes with swapped dimensions.
* A direct cut is half a pixel off when parities differ [`C53_cut_half_pixel`]; the shift is not in the field-of-view check [`C53_shift_not_checked`].
* `AtmoEvolution` uses `sqrt(sum(pupil_position * 2))` for the layer size; a cycle jumps to 0; slightly negative positions raise.
* Zernike index maps need 8j+1 ≤ 2^p [`C44_bound_needed`]; FWHM of ring profiles is meaningless [`C45_fwhm_ring`]; odd images are centred half a pixel off
  [`C45_odd_centre`].
* The PSF reference is only taken at the first trigger, so the Strehl ratio can exceed 1 [`C46_strehl_above_one`]; `finalize` twice divides twice; the reported pixel
  size is wrong for odd sizes [`C54_odd_size`]; default sampling raises for pupils of 4k+1 pixels [`C54_odd_pupil_raises`].
* Dark calibration: bad requests crash [`C47_bad_request_raises`]; a loaded dark is discarded [`C47_load_ignored`]; a request during an acquisition keeps the
  old sum [`C47_request_during_acquisition`, `C47_new_nframes_during_acquisition`].

Data objects and names
* `Intmat.restore` passes its arguments to the wrong parameters; a `Source` of infinite height cannot be saved; IIR filters with a zero highest coefficient
  shift at each restore [`C48_iir_shifts`]; `SpatioTempArray.set_value` is ambiguous for square shapes [`C48_set_value_ambiguous`]; several classes
  lose attributes (Layer S0, Pupilstop phase and diameters, M2C norm_factor, Recmat modes2recLayer, PupData slopes_from_intensity, LLT positions).
* Several types share a calibration directory [`C49_shared_directories`]; absolute tags ignore the root [`C49_absolute`]; class names that differ in
  capitals only share a module [`C50_collisions`].
* `ConvolutionKernel.process_kernels` mixes the two dimensions for non-square grids; its hash omits `dimy` and `return_fft`.
* `BaseOperation` with several constants makes only one operation (`constant_mul` silences `constant_sum`); `constant_max` is a lower
  bound and `constant_min` an upper bound; a product with a shorter second input makes the other elements zero (C58_one_operation,
  C58_constant, C58_filler).  A second input that shrinks leaves old elements in the work array (C58_stale).
* `MirrorCommandsCombinator` with low orders for the second mirror raises at every trigger (C59_no_second_low_orders).
- **ScheduleGenerator can switch early.** Times are compared in the working precision, so in single precision an entry due at 0.5 s is already used 1 ns before. `C60_schedule` bounds how early.
- **A ramp is kept by `demodulate_signal(cumulated=False)`.** The tilt is divided by the number of samples instead of the number of steps (line 95); one part in `nt` of a ramp stays and gives an amplitude (`C61_simple_keeps_ramp`, `C61_simple_ramp_amplitude`).
- **Demodulator ignores `mode_numbers`** for one-dimensional inputs: mode number `i` of the list is always element `i` (`C61_modes_ignored`, `C61_wrong_mode`).
- **OpticalGainEstimator works for one element only**: the test `abs(cmd) > 1e-12` raises for longer arrays.
- **AtmoInfiniteEvolution extrapolates with oblique winds.** The interpolation factor `sqrt(frac_rows**2 + frac_cols**2)` reaches 1.41, so one screen gets a negative weight (`C63_oblique_extrapolates`). Adding a line on one axis also drops the random numbers of the preview on the other axis, so the layer jumps.
- **AtmoInfiniteEvolutionUpDown misplaces its layers.** The upward pass starts from the screen already moved by the downward pass, so the upward layer is one step ahead of the downward one whatever the delays (`C63_up_layer_wrong`); with `extra_delta_time_down > extra_delta_time_up` both passes move the screen for good and the downward layer runs at twice the wind speed (`C63_double_speed`).
- **`ModalAnalysis.unwrap_ls` loses the vertical Laplacian on the first and last columns.** `rho[:, 0] = dx[:, 0]` and `rho[:, -1] = -dx[:, -1]` overwrite what line 131 added; the phase is then wrong everywhere, even when nothing is wrapped (`C65_columns`).
- **ModalAnalysis cannot work with `in_ef_list` alone.** The first block of `trigger_code` reads `self.in_ef.phaseInNm` whatever is connected (`C67_list`). `nmodes` is compared with `ifunc_inv.size[0]`, the number of pixels, and is ignored when `ifunc` and `ifunc_inv` are both given: the trigger then fails (`C67_both`, `C67_pixels`).
- C68: `compute_mmse_reconstructor` takes a covariance as diagonal when all other elements are below 1e-10 in absolute value, so correlations are ignored in small units (`C68_small_units`: modes in metres squared). Without any noise the identity used as weight has the size of the modes, so the call fails unless there are as many slopes as modes or one mode (`C68_no_noise`). `c_inverse=True` with `noise_variance` uses the variances as their inverses (`C68_inverse_variance`). Slopes that do not divide evenly among the sensors leave slopes of variance zero, and the result is not finite (`C68_uneven`).
- C69: `MultiImCalibrator` adds the slopes of every sensor to the mode of every command vector, so different pokes in one iteration mix (`C69_mixed_pokes`); it does not check that the slopes are those of the iteration, as `ImCalibrator` does (`C69_stale_slopes`); as many pokes as slopes in one vector divide each slope by another poke (`C69_several_pokes`). `finalize` joins `data_dir` a second time, so for a relative `data_dir` the files go to another directory than the one checked (`C69_relative_dir`). Without `full_im_tag` the file is called `None.fits`, which makes the next calibration in that directory fail (`C69_none_tag`).
- `EFInterpolator` keeps the mask of its first call: a later field with a larger mask loses its phase at lit pixels (`C71_stale`).
- A lit output pixel can mix in a pixel that was not extrapolated (diagonal to the mask) and has phase zero: a piston is reduced by up to 9 per cent there (`C71_lit`, `C71_short`).
- The extrapolation depends on the order of the directions: a single neighbour counts only if no direction was found before it, so a field and its transpose differ (`C71_transpose`). The coefficients are single precision, so three directions do not extend a piston exactly (`C71_single_precision`).
- `EFInterpolator` passes its x shift as the row shift of `Interp2D`; its documentation says horizontal. `update_parameters` exchanges the shifts that are not given, and always needs a magnification (`C72_position`, `C72_update`).
- The default grid of `Interp2D` steps by (n-1)/N from the centre of the first pixel: a change of resolution alone scales tilts by (n-1)/n and shifts the image by (n-1)/(2N) pixels (`C72_tilt_change`).
- `CCD.apply_binning` (319) averages the pixels of a block where a detector adds them: the counts, and hence the photon noise, are those of a flux `binning²` smaller (`C73_binning`). A size of 10 with a binning of 4 is read as blocks of 5 without an error (`C73_binning_other`).
- `CCD.apply_noise` (270) adds background and dark level together when either noise is on, and removes only the dark level, only with both photon and dark noise: with background noise alone the dark level stays (`C73_levels`).
- With excess noise but no photon noise the EM gain (400) is left in the frame, since it is removed only in the branch for photon noise (`C73_no_photon_noise` and its example).
- `ShSubapCalibrator._detect_subaps` rounds both ends of each slice separately: with 10 (or 8) pixels and 3 sub-apertures the widths differ and the assignment of the indices is an error; with 6 pixels and 4 sub-apertures neighbours share pixels silently (`C74_not_multiple`).
- `PyrPupdataCalibrator._generate_indices` compacts the pixels that stay in the frame: when a pixel is lost the rows of the table pair pixels that see different parts of the pupil (`C75_lost_misaligned`). The warning printed is the only sign until `PyrSlopec`, which cannot add the vectors (`C75_lost_pixels`). The same happens in intensity mode as soon as the four discs differ by one pixel (`C75_intensity`), although the padding was made for that case.
- C76: `SH.setup` computes the size of the oversampled field as `int(size * fov_ovs)` with `fov_ovs = final_size / size`, and truncation may lose a pixel: 26 pixels and 5 lenslets need 60 pixels and get 59 (`C76_size_short`, `C76_short_geometry`), then the first frame fails in `reshape` (`C76_short_fails`). Sizes that are multiples of the number of lenslets are not affected at the default coefficient (the factor is exactly 2).
- C76: the comment says that trials with an error of less than 1% are searched for, the code uses 2%. The pixel scale given by the user is silently changed by up to one FFT pixel over the number of pixels.
- C76: a field without light gives a frame of NaNs (`phot / 0 * 0`, the protection is commented out). `DistributedSH` fails with its default `target_device_idx=None` (comparison of None and 0), drops the rows of lenslets left by the integer division (`C76_distributed`), and has a default oversampling coefficient of 0 instead of 2.
- C77: `calc_geometry` rounds the padding to an even number, so with an odd number of pixels across the pupil sampling plus padding differs from the size of the FFT: 11 pixels and resolution 3 give a mask of 32 pixels and faces of 30 (`C77_odd_pupil`), and the constructor of the pyramid fails. With an even number sizes agree (`C77_sides`).
- C77: when `fft_res` is below the minimum that holds the pupils it is raised, but the side of the internal detector is not recomputed: pupils 60 apart with `fft_res` 3 span 27.3 pixels instead of 30 (`C77_smaller_pupils`, `C77_scale_shrinks`), and pupil positions calibrated for the requested geometry do not match.
- C77: the default number of steps of a circular modulation is not "more than 2*pi*mod_amp" below 3/4: four steps at 0.74 where an explicit 4 is refused (`C77_steps_too_few`); below 1/4 there is one step, which is a static tilt of the whole amplitude and not an unmodulated pyramid (`C77_steps_small`, `C77_one_step`).
- C77: linear modulation with one step (the default below 1/2, also for amplitude 0) divides by zero when caching the tilts, although the weights handle that case (`C77_linear_small`).
- C77: the maximum field of view is checked before interpolation only, and the exception for a mask larger than the field cannot be raised (`C77_fft` always returns a geometry).
- C78: two sources given one per row (a 2x2 array) are taken as a row of radii and a row of angles, so both get mixed coordinates (`C78_two_rows`).
- C78: a negative position angle puts a '-' in the name of the file, which `split_output` takes as the separator of the alias: the analysis raises after building everything (`C78_minus`, `C78_negative_angle`).
- C78: sources closer than 0.05 in both coordinates may share a name; the second overwrites the first and both get its data (`C78_collision`).
- C78: `start_time` is not part of any name, so files computed on another interval are returned unless `force_recompute` is set (`C78_stale`); `end_time` is stored and never used.
- C78: with `nmodes` given, modal names ignore the influence function, `npixels`, `dorms` and the mask, and a reference to `ifunc` or `ifunc_inv` gives one name: changed settings return stale modes (`C78_modal_stale`).
- C78: the added objects are connected to an object called `prop` although the analyser looks up the name of the propagation object; with another name connections fail.
- C79: `make_mask(centeronpixel=True)` reads `x[:, 0]` and `y[0, :]`, which are constant (x varies along the columns): whatever the requested centre, the mask is centred on pixel (0, 0), the corner of the frame (`C79_on_pixel`).
- C79: `AnnularMask` without a centre raises AttributeError (`self.dtype` does not exist); the circles are closed there and open in `make_mask`, so masks of the same radius may differ by the pixels on the circle (`C79_annular`, `C79_round`; the default full-frame disc is the same, `C79_circular`).
- C79: `spider_width` is enlarged by a fifth and arms are blocked by samples every half pixel, so an arm may take up to one pixel and a diagonal more than asked (`C79_spider_only`).
- C80: `special_last_petal=True` joins its two bounds with `or`, which every angle satisfies: the last petal is the whole pupil and overlaps all the others (`C80_special`).
- C80: petals are rotated by minus `angle_offset` and the spider by plus `angle_offset`: unless twice the offset is a multiple of a petal the arms cross the petals instead of lying on the gaps (`C80_spider_inside`, `C80_sector`).
- C80: petals use pixel indices minus half the frame, without the half pixel of the mask: they meet half a pixel off its centre and opposite petals have different sizes (`C80_half_pixel`).
- C81: `CurWfsSlopec` reports one count for every dark pixel in `out_flux_per_subaperture`, and the total counts them (`C81_curvature_dark`); pixels with a negative sum are not normalised, so a slope may be any number (`C81_curvature_negative`).
- C81: `CurWfsSlopec` builds a square mask of `ccd_size[0]` pixels: on a wider detector the pupil is taken at the left edge instead of the centre announced in `cx`, `cy` (`C81_pixels_wide`); on a taller one it wraps to the next row, or raises (example).
- C81: the mask given to the slopes of `CurWfsSlopec` and `ZwfsSlopec` is a quarter of the frame, while their display map has indices of the whole frame: `get2d` always raises IndexError (`C81_map_pixels_raises`).
- C82: before the first time of a cube `searchsorted` gives 0 and index -1 is the last screen: a cube of constant screens comes out with the opposite sign and larger than it is (`C82_early`).
- C82: a `PhaseScreenCube` of one screen divides by a zero time step (`C82_single`).
- C82: the resampling of a cube to the pupil is short by one part in its size (`C82_scale`); cubes that are not square fail (`C82_not_square`).
- C82: sources with `_layer` in their names raise KeyError, or another field is stamped (`C82_names`).
- C82: `SpatioTempArray.set_value` stores values with time last unchanged when all axes are equally long (`C82_set`).
- C83: the tilt of `PolyChromWFS` reaches its extreme value at the centre of the outer pixels instead of their edge: it is n/(n-1) times the one requested (`C83_tilt`).
- C83: `PolyChromWFS` makes square tilts from `in_ef.size[0]`: fields that are not square raise even without tilts (`C83_refused`).
- C83: the parts given by `get_wavelength_contribution` do not add up to the output when the sensors lose light, because the final scaling is left out (`C83_contributions`).
- C84: with model MAORY-1 `n_phot` drops the last entry of the wavelengths as if it were sodium, but it is K: 2.2 um is taken as H (`C84_maory`, `C84_table`); its band J is spelled ' J' with a space, so 'J' raises (`C84_named`).
- C85: for a star on the axis and a layer without shift, rotation and magnification `setup_interpolators` takes the direct cut before it looks at the chromatic shift: the effect, asked for with `enable_chromatic_effect`, is ignored (`C85_on_axis`).
- C85: wavelengths between the ranges of the tables and beyond 28 um are silently computed with the polynomial of K (`C85_bands`).
- C85: the pressure of `_pressure_nasa` increases at 11000 m, so a layer at 11000 m has a smaller shift than one a metre below (`C85_pressure_jump`).
- C85 (reading only): in the table of L the coefficients for pressure squared and temperature times humidity of the first power (-0.112149e-21 and 0.461560e-22) have the magnitudes and signs of each other's column in the other tables; they look exchanged, the first with a wrong exponent.
- C86: with an odd padded size (odd pupil and odd padding) the frequencies of the propagator are one step too low: a plane wave gets a phase and every field moves sideways by `lam * d / size` along both axes (`C86_odd`, `C86_odd_shift`).
- C86: only the height of the first source is used: with sources of several heights the others are propagated to the height of the first. A source at infinity is refused also downwards, where its height is not used (`C86_order`, `C86_down`).
- C86: downwards, the field stops at the lowest layer also when that layer is above the telescope (`C86_down`).
- C87: the spectrum is placed on the frequencies `k * fs / (2 n)`, k = 1..n, whatever the frequencies given: a vector from 0 to half the sampling frequency is shifted by up to one step, one that stops earlier is stretched (`C87_axis`).
- C87: the phases of positive and negative frequencies are drawn independently, so the amplitude of one realisation at one frequency is anything between zero and the value asked for (`C87_spectrum`, `C87_bound`); only on average over phases is the power that of the spectrum (`C87_variance`).
- C87: generators with neighbouring seeds share their phases: mode i + 1 of one is mode i of the other if the spectra are equal (`C87_seeds`).
- C88: a coronagraph multiplies the flux `S0` by the transmission and also passes on the smaller amplitude; sensors multiply `S0` by the sum of the amplitude, so the loss is counted twice: a stop of amplitude `t` gives `t ^ 3` of the photons (`C88_photons`).
- C88: in the Lyot mask the inner working angle is a radius and the outer one a diameter: with `owa <= 2 iwa` nothing passes (`C88_lyot_empty`). Without outer angle the corners of the array are stopped (`C88_lyot_corner`). With a knife edge the angle asked for has no effect (`C88_knife`).
- C88: the mask of the focal plane filter is centred on the corner between four pixels, the image on a pixel: frequencies `f` and `-1 - f` are treated alike (`C88_filter_off`). The radius of its obstruction carries the ratio of fields twice (`C88_filter`).
- C88: the dark zone of the apodizing phase plate has the angles asked for only with two pixels per lambda over D (`C88_app_zone`).
- C88: a phase-apodized Lyot coronagraph with knife edge, the default, can never be made (`C88_arguments`). By reading only: its `make_pupil_stop` is never called, the base class calls `make_pupil_plane_mask`; the design of the phase ends in `raise Warning` when it does not converge.
- C88: when the grid is finer than the pupil the complex field goes through `toccd`, which keeps the sum, so amplitudes grow by the square of the factor; a field whose mean has negative real part is divided by the smallest number of the type (`C88_resampling`).
- C89: the version with the coherent core uses mean and variance of the phase as given, so that a part of the pupil a whole wave off, which changes nothing in the field, is not removed (`C89_waves_core`). The version with the average leaves the variance of the amplitude of a flat wavefront (`C89_flat_average`). Without any light both divide by zero.
- C90: a disc less than three steps of the sampling across has no points at all (`C90_small_disc`); the sensor then has no light. Sampled in rings without number of rings, a disc below five resolution elements is a division by zero (`C90_no_rings`). One ring with coarse sampling is a single point off the middle (`C90_one_ring`).
- C90: the gaussian is said to extend to three standard deviations but is cut at a tenth of its largest value, about two (`C90_gauss`).
- C90: the focus of a layer divides by the square of its height where the product of both heights belongs; off by the ratio of the heights (`C90_focus`). A single layer without focus height is treated as out of focus by an infinite amount (`C90_no_focus`).
- C90: after `flux_threshold` the fluxes are not scaled, the total is below one; with equal fluxes a threshold of one leaves none (`C90_threshold`).
- C90: when the number of points grows, which sources from a PSF with threshold can, four of the source's points are overwritten and their light lost, or the update fails (`C90_growing`).
- C90, by reading only: the four points that get the light of the weak ones are on the edges of the pyramid, not the middle of its faces; their radius in lambda over D is used as a coefficient in radians; `FROM_PSF` without `psf` input fails at the first trigger; gaussian with polar sampling and `FROM_PSF` with rings raise.
- C91: positions of subapertures are spread to the border of the pupil instead of the outer centres, too far by `n / (n - 1)`; a single subaperture is put at the corner (`C91_subapertures`).
- C91: the half pixel by which the star is moved does not put it on the middle pixel: off by `1 / (2 s)` without oversampling, up to half a pixel with much, since the oversampled map is sampled and not averaged (`C91_pixels`).
- C91: the image is the correlation with the kernel, so that the kernel appears mirrored (`C91_mirror`).
- C91: more rows than columns, and the gaussian kernel of a single subaperture (`build` sets the number of columns to two), go out of range (`C91_indices`).
- C91: `prepare_for_sh` always transforms kernels from a file, also when `return_fft` is false (`C91_not_transformed`). The name is remembered before the calculation, so that a failed calculation is forgotten at the next call (`C91_failure_forgotten`).
- C91: `beacon_focus = -1` asks for the mean height but the launch telescope multiplies it with the air mass: it only works at air mass one (`C91_focus`).
- C91, by reading only: the top-hat profile has radius sigma instead of half the width; the hash leaves out the number of rows; `lgs_map_sh` is always in single precision; `LaserLaunchTelescope.from_header` passes other arguments than the constructor has.
- C92: pixels whose derivative happens to be zero are taken for dark and left out of the mean, so that a subaperture of which a small part is tilted has the slope of that part (`C92_partly_flat`), and slopes of two phases do not add up (`C92_not_additive`), as needed when interaction matrices of zonal (local) influence functions are measured.
- C92: the correction `(np_sub - 1) / np_sub`, said to make the scale that of the Shack-Hartmann, makes it differ: the slopes computed from pixels have no such factor (`C92_units`); with one pixel per subaperture all slopes are zero. The field of view is said to be a radius and used as a diameter.
- C92: the mask is taken from the first field; a field lit elsewhere later gets wrong slopes (`C92_stale`). The number of rows of the grid (`ny`) is not used; a map with more rows than columns raises (`C92_refused`).
- C93: every parameter is estimated by itself, so that parameters with similar effects are each given the whole correction; with `k` such parameters the error is multiplied by `1 - k gain` (`C93_overlap`): it oscillates or grows for gains that the constructor accepts. From a bad starting point the optical gain changes sign and the estimate moves away (`C93_wrong_way`).
- C93: with six parameters the factors of anamorphosis are the parameters themselves, zero by default, whereas no anamorphosis is one, as passed with four parameters (`C93_six_params`).
- C93: with a forgetting factor below one the true parameters are not at rest (`C93_forgetting`). Slopes that are all zero raise (`C93_dark`). The error that is given belongs to the parameters before the last iteration (`C93_iterations`).
- C93: the sign of an element is that of the cosine of the phase, that is zero (decided by trends and noise) if the modulation is the sine of the generators and there is no delay; signs are then still consistent for one mode (`C93_column`). The times of the slopes are collected but not used: the sampling frequency is that of the simulation even if slopes come less often.
- C94: tip and tilt are measured from the pixel nearest to the barycentre, so a motion of the image by whole pixels is not seen (`C94_shift`). A barycentre nearer to the border than half the grid is not put in the centre of the frame but off by half of what is missing (`C94_edge`), and with an odd grid the last row and column are empty (`C94_frame`).
- C94: a centre nearer to the first rows than the size of the region gives a negative index, that counts from the end: the region is empty and the flux zero (`C94_crop_edge`).
- C94: the relative tolerance compares with an initial value, 1e18, that is not updated: only the absolute tolerance stops the loop (`C94_tolerance`). The argument `fft_res` is overwritten (`C94_geometry`). The padding can be negative, for pixels larger than `λ/D` or an odd sampling (`C94_padding`).
- C94: within an iteration the difference of images uses the flux and the region of the image before the update, and the derivatives use those after (`C94_step`). If the image is smaller than the transform, its total changes with the phase and the derivatives are those of the image before normalisation (`C94_derivative`, `C94_derivative_image`).
- C95: with an odd number of pixels two `fftshift` are not the identity and the displacement of the side band is half a pixel rounded to even: for an even number of fringes a tilt of one period is left in the map (`C95_odd`, `C95_odd_tilt`).
- C95: the tilt is zero at pixel `n / 2`, the demodulation has its origin at pixel 0: with an odd total number of fringes equal wavefronts are measured as half a wavelength, where the phase wraps (`C95_odd_fringes`).
- C95: a rotation by 180° reads row `i` at `n - 1 - i + i / n`, not at `n - 1 - i` (`C95_rotation`).
- C95: when both branches are interpolated they share the cached output field, and the phase of the second is set to zero where the amplitude after its rotation is below the threshold: pixels with light lose their phase (`C95_shared`).
- C95: the output `out_total_counts` is the mean per pixel (`C95_counts`).
- C96: the sensor changes the number of pixels with `EFInterpolator`, that resamples the pupil instead of padding it; the scale it computes, `λ / (internal_res * pitch)`, is the one of a padded grid. A tilt of p waves between the first and the last of `n` pixels moves the image by p pixels whatever the size of the grid: the true scale is `λ / ((n - 1) * pitch)`, and the oversampling does not change it (`C96_scale`, `C96_scale_wrong`).
- C96: a field of view larger than the grid makes the start of the cut negative, and only the last rows and columns are left (`C96_cut_large`).
- C96: the stop is centred half a pixel from the zero frequency (`C96_stop`).
- C97: the tilts of the modulation have one wave between the first and the last pixel of the pupil, so the modulation is `p / (p - 1)` times the amplitude asked for in wavelengths over the diameter (`C97_modulation`).
- C97: the central obstruction of the focal plane is documented "in pixels"; it is in wavelengths over the diameter, and multiplied by the fraction of the field kept by the stop (`C97_stop`).
- C97, by reading only: `pyr_edge_def_ld`, `pyr_tip_def_ld` and `pyr_tip_maya_ld` take the first array of `where` and then the length of its first element: any value that selects a pixel raises `TypeError`.
- C98: in the double roof `rot90` is a view, so the tilts added to the two roofs are both added to both: the tilt is twice the one written, which is what puts the pupils where the pyramid has them (`C98_roof`, `C98_combined`). With copies the pupils would be half as far along one axis.
- C98: the second pair of pupils of the double roof is turned by a right angle with respect to the first (`C98_combined`, `C98_quadrant`): the same pixel of the four pupils is not the same point of the pupil.
- C98: the images of the focal plane of the double roof count the light twice (`C98_roof_psf`).
- C99: a `DynamicIntegrator` built with gain zero stays at zero whatever gains it receives: the numerator is normalised when it is built (`C99_zero_start`).
- C99: `DynamicIntegrator` takes one number as its new gain and gives it to all modes; a vector raises. `DynamicIirFilter` takes a vector; one of a single element changes only the first mode (`C99_vector_raises`, `C99_one_element`).
- C99, by reading only: the handlers of `DynamicIntegrator` and `DynamicIirFilter` print `e.__name__`, which exceptions do not have: any error in the gain becomes an `AttributeError` that stops the simulation.
- C99, by reading only: `DynamicIntegrator` documents `int_gain` as a number, but `from_gain_and_ff` takes its length: a number raises `TypeError`.
- C100: the low pass filter of order 1 has not the usual -3 dB at its cut-off frequency: `a0 = w/(1+w)` with pole `1/(1+w)` leaves `(1+w^2)/(5+4w+w^2)` of the power, one fifth at a quarter of the sampling frequency (`C100_first`).
- C100: cut-off frequencies below zero are accepted and give unstable filters (`C100_negative`).
- C100: `LowPassFilter(simul_params, cutoff_freq)` with the default values of both `n_ord` and `amplif_fact` fails (`None % 2`); the default order 2 of `lpf_from_fc` is never used (`C100_rejections`).
- C100, by reading only: `get_zeros` and `get_poles` give `np.roots` the coefficients lowest order first, so they return the reciprocals of zeros and poles, and store them in real arrays, dropping imaginary parts.
- C101: in the circular geometry neighbours on the same ring, from the second ring on, are farther than one step, so mechanical coupling gives them the coefficient of second neighbours (`C101_ring_gap`); the exact equality `distance <= step` of the first neighbours is left to rounding.
- C101: the radius of the geometry `alpao` is commented as slightly larger than (dim-1)/2; it is smaller above 48 actuators, which then loses the ends of the axes, and above 432 actuators none is left (`C101_alpao`).
- C101: an even number of actuators across the diameter of the circular geometry gives the mirror of the next odd number (`C101_circular`).
- C101: one actuator (`n_act = 1`) is a division by zero in all the geometries (`zonalStep`).
- C101: the documentation of `search_radius_steps` says that all masters are used when fewer than three are near; the code uses the three nearest (`C101_near`).
- C102: `calc_phasescreen` writes the frequencies of the row of zero periods into row `half_dim` (one period) instead of `half_dim - 1`, so that the screens have no power at zero periods along the rows - the strongest frequencies of the spectrum - every column has mean exactly zero, and the row of one period, no longer conjugate to its opposite, has half of its power (`C102_columns`, `C102_rows`, `C102_covariance`). It also takes `flipud` (another row of draws) where the same row reversed is meant.
- C102: the matrix before `xp.real` is not the transform of a real screen for the same reason; the imaginary part that is dropped is not rounding.
- C102, by reading only: a screen of a size that is not a power of two is stored under the requested size although it is larger; with an infinite outer scale the null frequency is `inf * 0` and the whole screen is NaN.
- C103: `AtmoRandomPhase.prepare_trigger` starts again from the last position of the previous screen until the interval is over, so with `update_interval` u > 1 each of the u triggers of the first interval of a new screen increments the seed, computes a whole new square screen and shows a different phase (`C103_not_held`); u - 1 screens are thrown away each time.
- C103: `phasescreens_manager` also looks for the file of the outer scale rounded to an integer: after a screen with L0 = 20 m, one with L0 = 20.4 m silently gets the same screen; pixel pitches are written with three decimals, so pitches of 20.4 mm and 19.6 mm share a file (`C103_confused`).
- C103: the two lists of `AtmoEvolutionUpDown` go back to the start of the screen each by itself; after that the lag between the two ways is no longer the difference of the extra times (`C103_wrap`).
- C103, by reading only: `output_name.replace('_layer', '_ef')` replaces every occurrence, so a source whose name contains `_layer` raises KeyError at the first trigger; `update_interval = 0` raises in `post_trigger`; the message for `seed < 1` says `Seed must be >1`.
- C104: `AtmoPropagation` makes an entry of `_block_size` only for layers whose number of rows is divisible by 5, 4, 3 or 2; a magnified layer of, e.g., 77 or 121 pixels raises KeyError at the first trigger (`C104_sizes`). The columns are not looked at: in a layer that is not square the missing pixels of the leftover columns become NaN (`C104_columns`); a layer with no light becomes NaN everywhere (`C104_dark`).
- C104, by reading only: `prepare_trigger` writes into the phase of its input layers, so other objects using the same layer see the filled values.
- C105: `calc_noise_cov_elong` takes `x_idx - n_sub_aps / 2` as the coordinate of a sub-aperture, which is its corner; sub-apertures that mirror each other about the centre have different elongations for a launcher at the centre (`C105_corner`). With `only_diag` the flux `eta` is computed but not used (`C105_diagonal`), even with `eta_is_not_one`.
- C105, by reading only: a truncated sub-aperture with no elongation gives 0/0 = NaN; `t_g_parameter > 1` makes a negative index and takes the wrong sub-apertures; without `user_pofile_xy` the name `theta` has no effect.
- C106: `make_modal_base_from_ifs_fft` never writes `filt_modes` in the array of modes to be removed: its rows stay zero and are skipped, only their number counts and that many more modes are cut (`C106_filt_unused`, `C106_kept`).
- C106: with `zern_modes=0` the projection used for `m2c` is `outer(coef, coef)`, which is not the removal of piston: the columns of `m2c` do not reproduce `kl_basis` (`C106_plain_commands`, `C106_commands_witness`).
- C106: the modes to be removed are projected on the influence functions after being made orthogonal, so they are no longer orthogonal; removed one after the other, some of the earlier ones is put back (`C106_filtered_witness`).
- C106, by reading only: the Zernike modes are generated on a square of `mask_shape[0]` pixels and indexed with the pixels of the mask, so a mask that is not square takes the wrong values or fails; with `zern_modes > 0` and `filt_modes` the zero rows go through the QR decomposition and become arbitrary directions.
- C107: `calc_effective_wind_speed` calls `xp.arctan(e1, e2)` instead of `arctan2`: NumPy takes the second array as the place for the result, so the direction is the arctangent of the first component in m/s (`C107_direction`, `C107_direction_witness`); with scalars the call raises TypeError.
- C107: `calc_effective_wind_speed` divides the point ahead angle, which is for the way there and back, by the time of light for one way: the speed at the layer is twice `v h / H` (`C107_layer_speed`).
- C107: `PowerLoss.dx_sat_sq` is not squared and the diameter of the receiver is used instead of its area (`C107_power_scaling`).
- C107, by reading only: `ElectricFieldReflection` overrides `trigger` instead of `trigger_code`, so it bypasses what `BaseProcessingObj.trigger` does around it (streams and graphs).
- C108: `platescale_coeff` with a mirror that starts at mode 1 compares its tilt, focus and first astigmatism with focus and astigmatisms of the ground mirror (`C108_first`, `C108_start_one`).
- C108: with an odd `pixel_pupil` the window has one pixel less than the array it is written to: ValueError (`C108_odd`).
- C108, by reading only: the first mode of the ground mirror (`start_modes[0]`) is not used, its focus is always taken to be mode 2.
- C109: `PlotDisplay._update_display` appends the time before it reads the values; when a value is not a scalar the exception is shown and the time stays, so that x and y have different lengths from then on (`C109_drift`, `C109_after_error`).
- C109: `BaseDisplay._show_error` clears the axes but `self.lines` is kept: the lines are updated and never shown again (`C109_blank`); when there were no lines yet they cannot be created any more (`C109_first_error`).
- C109, by reading only: with a different number of inputs PlotDisplay replaces the history by zeros but keeps the count, so zeros are shown for the past; `DataPlotter.plot_text` after a plot of data raises AttributeError (`del self.text`).
- C110: `status_update` and `handle_responses` read the same queue and put back at its end what is not for them, so responses are reordered: a terminator can overtake the data of its request (`C110_reordered`).
- C110: `remove_xp_np` has no `try/finally`; `copyTo(-1)` gives the object itself when it is on the CPU; so an object that cannot be pickled loses `xp` and `np` in the simulation, the exception being caught (`C110_restore_fails`).
- C110: `_trigger_data_mode` leaves the loop after an unreadable request while `_trigger_image_mode` goes on (`C110_data_waits`, `C110_image_malformed`).  By reading only: `speed_report` is always the empty string.
- C111: `out_params[8]` is documented as 1.0 when the fit converged; the fitter of astropy warns and does not raise, so it is 1.0 for every fit that ends (`C111_converged_ignored`).
- C111: an exception after `success = 1.0` (a fitted `alpha` of zero) leaves `success` 1.0 with the parameters of the first estimate and empty images (`C111_zero_alpha`).
- C112: `SnCalibrator.finalize` without a frame raises AttributeError (`C112_null_empty`).
- C113: `compute_zern_ifunc` removes the piston after the orthogonalisation, which undoes it for modes whose mean on the mask is not zero (`C113_orthogonal_iff`, `C113_not_orthogonal`); with a central obstruction focus and spherical aberration are such modes.
- C114: the handlers in `prepare_trigger` use `e.__name__`, which exceptions do not have, so a bad interactive value raises AttributeError and stops the simulation (`C114_invalid`).
- C114: with `dt=None`, the default, `post_trigger` calls `t_to_seconds(None)`, a TypeError at the first iteration (`C114_no_dt`); an interactive `dt` of zero gives ZeroDivisionError (`C114_zero_dt`).
- C114: a measurement that raises leaves the integrated pixels (`C114_after_failure`); frames between two measurements set the status to OK (`C114_status_lost`).  By reading only: `in_output_tag` is never read.
- C115: the map is picked at `round(a n / dim)`, not at the centres of the pixels: the reduced map is shifted by up to half of the reduction factor (`C115_decimate`, `C115_not_centred`); for `dim > 2 n` the last index is outside the map (`C115_resample_defined`).
- C115: tip and tilt of a segment are not made orthogonal (`C115_tip_tilt`, `C115_not_orthogonal`); small pupils give NaN or zero rows without an error (`C115_usable`, `C115_lost_segment`).  By reading only: `plot_results` takes the number of pixels (`ifs_cube.shape[1]`) for the number of modes and fails.
- C116: `MultiRecCalibrator.finalize` joins `data_dir` to paths that have it already (`C116_multirec_relative`) and calls `makedirs` after it has written the reconstructors of the sensors (`C116_multirec_no_dir`); a full reconstructor named like a sensor with its number replaces it or fails at the end (`C116_multirec_collision`).
- C116: `RecCalibrator` and `ImCalibrator` make `data_dir` but not the directory of the file (`C116_subdirectory`); an empty `data_dir` raises at the end of the calibration (`C116_empty_dir`); `ShSubapCalibrator`, `PyrPupdataCalibrator` and `DynamicDarkCalibrator` find out at the end that the file exists (`C116_sn`).
- C117: a name alone on the terminal is sent with `False` (`C117_terminal`).  By reading only: `in_save` given so makes `_save(False)` of the interactive calibrators raise AttributeError, because only `None` stands for an automatic name; the process that reads the terminal is not a daemon, so the simulation does not end until end of file; and `TerminalInput._instance` is never reset, so a second simulation in the same process cannot have one.
- C118: the internal copies of `SprintPyr` do not get `sign`, `start_mode`, `nmodes`, `idx_modes` of the mirror nor `thr_value` of the slope computer: the nominal matrix has the opposite sign for a mirror with `sign=1` (`C118_sign_ignored`), columns of other modes with `start_mode` (`C118_start_ignored`), and differs from the measured one with a threshold (`C118_threshold_ignored`).  With `norm_factor` the copy's slopes refer to frames scaled to a maximum of 4096, not to the detector's.
- C119: `base_time_obj` copies the globals when it is first imported: a second `init()` in one process (for instance a second simulation with another precision) has no effect on objects without explicit arguments (`C119_later_init_ignored`), and an import before `init()` makes them impossible (`C119_import_before_init`).  SPECULA_DISABLE_GPU=`0`, `false` or the empty text disables the GPU (`C119_disable`).  `to_xp(force_copy=True)` without a type converts integers and single precision to double (`C119_values`).  `TimeHistory` and `Recmat` share the array they are given (`C119_history_shared`).
- C120: `transferDataTo` copies arrays only, so numbers stay as they were at the first reading, which is in `setup` (`C120_numbers_frozen`).  `PhaseFlattening`, `ElectricFieldReflection` and `ElectricFieldCombinator` set `S0` of their output in the trigger: a sensor on another device sees `S0 = 0`, hence no light, for ever; and a `BaseValue` that holds a number never changes.  Between two GPUs a change of shape is silently ignored, because the `except` branch assigns a local name (`C120_shape_change`).
- C121: `ImShSynimGenerator` normalises the influence functions, so its matrices refer to amplitudes of unit root mean square while the mirror takes commands: zonal mirrors get a loop gain that is wrong by the root mean square of each influence function (`C121_recmat`).  With `mmse=True` every trigger raises, because `IFunc` has no attribute `ifunc`; `rec_nmodes` larger than the number of modes raises as well (`C121_works_iff`).
- C122: a crop by centre whose window lies left of or above the image shows most of the image instead of nothing, because the negative end counts from the other side (`C122_crop_center_left`).  `PixelsDisplay` in linear scale keeps the colour range of the first frame (`C122_linear_pixels`).  Shack-Hartmann frames with subapertures of odd side cannot be shown like those of a pyramid (`C122_quadrants_odd`).  Seen but not modelled: `DoublePhaseDisplay.trigger_code` calls `_update_display()` without its argument, so it only ever shows an error; `PixelsPupDisplay` draws the pupils at the coordinates of the whole frame although the image is cropped.
- C123: seen but not modelled: `RTF` and `NTF` with `overplot=True` and a `color` raise, because the colour is given to `plt.plot` twice.
- C124: `get_poles` and `set_poles` use the reciprocals of the poles, because coefficients are stored lowest order first and numpy wants the highest first (`C124_get_poles`, `C124_set_poles`); `get_poles` raises for filters with a pole in zero (`C124_pole_zero`).  `stability_analysis` multiplies the numerator, which already has the gain, by the largest stable gain: for a filter of gain g the resonance is that of a loop with g times the gain announced (`C124_analysis`).
- C125: `from_control_tf` puts the zeros that make rows equally long before the coefficients of lowest order, for numerator and denominator separately, so an object with a shorter numerator loses its delay: `1/(z-1)` becomes `z/(z-1)` (`C125_from`, `C125_from_wrong`).  Filters with a zero as leading coefficient of the numerator do not come back from the library.  Assumed of `control.TransferFunction`, from memory of the library: leading zeros are removed and a zero denominator raises.
- C126: `RecCalibrator` turns the numbers of a list `noise_cov` into arrays without dimensions, which `generate_rec_mmse` then tries to iterate, so a list with one variance for each slope always raises (`C126_calibrator`).  The same variances as an array raise too, or give a vector in place of the matrix when there are as many modes as slopes (`C126_vector`).  A list with one array for each sensor raises, because its length is compared with the number of slopes (`C126_noise_raises`).  Seen but not modelled: `RecCalibrator` passes all influence functions of the mirror and ignores its `start_mode` and `idx_modes`, so the covariance belongs to other modes than the columns of the interaction matrix when these are used; the covariance is in squared radians while commands of the mirrors are in nanometres, so `noise_cov` has to be scaled accordingly.
- C127: the automatic vertical limits of `ModesDisplay` cut off the smallest absolute value when all modes have the same sign (`C127_auto`).
- Seen while reading, in code that is not modelled or in parts left out: `ImCalibrator` with `verbose` prints `self.im`, which does not exist, and raises; the `abstractmethod` of `BaseFilter` has no effect on classes without the metaclass, and `MultirateComplementaryFilter` has no `reset_states` of its own; the message for an invalid radius in `PyrPupdataCalibrator` lacks the `f` of a formatted string; `SubapData.single_mask` has the shape (nx, ny); `killProcessByName` leaves out only the process of its own shell.
<!-- more findings -->

## Not modelled

* Files not modelled at all: everything of `specula/processing_objects`, `specula/lib`, `specula/data_objects` and `specula/display` that is not in the table above.
* In the modelled files: display and print statements, GPU/CPU transfers, CUDA graphs and streams, dtype conversions (except as said), random numbers,
  optical propagation numerics, YAML and FITS byte formats, file system effects.
