import Mathlib.Algebra.Order.Floor.Ring
import Mathlib.Algebra.Order.Field.Basic
import Mathlib.Algebra.BigOperators.Group.List.Basic
import Mathlib.Analysis.Real.Sqrt
/-
Model of `specula/lib/radial_profile.py`: radial profile, full width at half maximum, encircled energy and its value at a distance.

Values are elements of an ordered field with floor (exact arithmetic); the square roots of the distances of the pixels are taken in
the reals (`pixelDist`), the rest takes the list of distances as it comes.  Arrays are lists, images are flattened.  Exceptions are
`none`; the NaN returned for empty profiles is `none` too, as said at each place.
-/
namespace Specula

/-- Flattened distances of the pixels from the centre, radial_profile.py 35-44 and 48; `cy`, `cx` absent: half the shape. -/
noncomputable def pixelDist (rows cols : ℕ) (cy cx : Option ℝ) : List ℝ :=
  let cy := cy.getD ((rows : ℝ) / 2)
  let cx := cx.getD ((cols : ℝ) / 2)
  (List.range rows).flatMap fun i : ℕ => (List.range cols).map fun j : ℕ => Real.sqrt (((j : ℝ) - cx) ^ 2 + ((i : ℝ) - cy) ^ 2)

section
variable {K : Type} [Field K] [LinearOrder K] [IsStrictOrderedRing K] [FloorRing K]

/-- Length of `bincount`: one more than the largest bin. -/
def nBins (bins : List ℕ) : ℕ := bins.foldr (fun b n => max (b + 1) n) 0

/-- One entry of `bincount(bins, weights)`. -/
def binSum (zs : List (ℕ × K)) (k : ℕ) : K := ((zs.filter fun z => z.1 = k).map Prod.snd).sum

structure RadialProfile (K : Type) where
  profile : List K
  dist : List K
  counts : List K

/-- `compute_radial_profile(..., return_counts=True)`, radial_profile.py 46-64, given the distances. -/
def radialProfile (r img : List K) : RadialProfile K :=
  let bins := r.map fun x => ⌊x⌋₊
  let count := fun k => bins.count k
  let valid := (List.range (nBins bins)).filter fun k => count k > 0
  { profile := valid.map fun k => binSum (bins.zip img) k / (count k : K)
    dist := valid.map fun k => binSum (bins.zip r) k / (count k : K)
    counts := valid.map fun k => (count k : K) }

/-- `cumsum`. -/
def cumsumFrom (acc : K) : List K → List K
  | [] => []
  | x :: xs => (acc + x) :: cumsumFrom (acc + x) xs

/-- Area weights of the bins when the numbers of pixels are not given, radial_profile.py 129-149. -/
def annulusWeights (d : List K) : List K :=
  match d with
  | [] => []
  | [x] => [max x (1 / 2) ^ 2]
  | _ =>
    let n := d.length
    let mid := fun i => (1 / 2) * (d.getD (i + 1) 0 + d.getD i 0)
    let inner := fun i => if i = 0 then 0 else mid (i - 1)
    let outer := fun i => if i + 1 = n then d.getD i 0 + (d.getD i 0 - inner i) else mid i
    (List.range n).map fun i => max (outer i ^ 2 - inner i ^ 2) 0

/-- Division by the last element if it is not zero, radial_profile.py 160-163. -/
def normalizeLast (l : List K) : List K :=
  let total := l.getLastD 0
  if total ≠ 0 then l.map fun x => x / total else l

/-- Distances of equally spaced bins, radial_profile.py 122. -/
def indexDistances (n : ℕ) : List K := (List.range n).map Nat.cast

/-- Weights of the bins: the numbers of pixels if given, otherwise areas, radial_profile.py 120-157. -/
def ringWeights (n : ℕ) (counts dist : Option (List K)) : List K :=
  match counts, dist with
  | some c, _ => c
  | none, some d => annulusWeights d
  | none, none => annulusWeights (indexDistances n)

/-- `compute_encircled_energy(profile, n_px_in_radial_bin, radial_distance, normalize=...)`, radial_profile.py 118-164.  Without
distances the bins are at 0, 1, 2, ...  `none`: shapes differ. -/
def encircledEnergy (profile : List K) (counts dist : Option (List K)) (normalize : Bool) : Option (List K) :=
  let weights := ringWeights profile.length counts dist
  if weights.length ≠ profile.length then none
  else
    let ee := cumsumFrom 0 (List.zipWith (fun p w => p * w) profile weights)
    some (if normalize then normalizeLast ee else ee)

/-- `get_encircled_energy_at_distance` for one distance, radial_profile.py 170-207.  `searchsorted(side='left')` on increasing
distances is the number of leading ones below the query.  `none`: sizes differ, or empty (the code returns NaN). -/
def eeAtDistance (ee r : List K) (d : K) : Option K :=
  if r.length ≠ ee.length then none
  else if r.length = 0 then none
  else
    let last := r.length - 1
    let idx := min (r.takeWhile fun x => x < d).length last
    if d ≥ r.getD last 0 then some (ee.getD last 0)
    else if d ≤ r.getD 0 0 then some (ee.getD 0 0)
    else if idx > 0 ∧ r.getD idx 0 - r.getD (idx - 1) 0 ≠ 0 then
      some (ee.getD (idx - 1) 0 + (d - r.getD (idx - 1) 0) * (ee.getD idx 0 - ee.getD (idx - 1) 0) / (r.getD idx 0 - r.getD (idx - 1) 0))
    else some (ee.getD idx 0)

/-- `compute_fwhm_from_profile`, radial_profile.py 70-107.  `none`: sizes differ, or one of the two NaN results. -/
def fwhm (p r : List K) : Option K :=
  if r.length ≠ p.length then none
  else if p.length = 0 then none
  else
    let peak := p.foldl max (p.getD 0 0)
    if peak ≤ 0 then some 0
    else
      let half := peak / 2
      match (List.range p.length).find? fun i => decide (p.getD i 0 ≤ half ∧ i > 0) with
      | none => none
      | some i =>
        let p1 := p.getD (i - 1) 0
        let p2 := p.getD i 0
        let r1 := r.getD (i - 1) 0
        let r2 := r.getD i 0
        if p2 - p1 = 0 then some (2 * r1) else some (2 * (r1 + (half - p1) * (r2 - r1) / (p2 - p1)))

end
end Specula
