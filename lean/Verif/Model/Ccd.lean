import Mathlib.Algebra.Order.Floor.Ring
import Verif.Model.Resample
/-
Model of the detector chain of `specula/processing_objects/ccd.py`: gains (168-205), `apply_binning` (319-326), `apply_qe` (328-332)
and `apply_noise` (265-316), after the integration of `trigger_code` (see `Integration`).

Numbers are in an ordered field with floor, without rounding other than `xp.round`.  Random numbers are given by functions: what the
generator returns for the given parameters.  Not modelled: charge transfer (`cte_noise`), pixel dependent quantum efficiency and the
options marked as not used yet.
-/
namespace Specula

section
variable {K : Type} [Field K] [LinearOrder K]

/-- `xp.round`: nearest integer, ties to even. -/
def roundEvenF [FloorRing K] (x : K) : Int :=
  let f := ⌊x⌋
  if x - f < 1 / 2 then f
  else if x - f > 1 / 2 then f + 1
  else if f % 2 = 0 then f else f + 1

/-- Parameters of a CCD as used by `apply_noise`, for one pixel. -/
structure CcdCfg (K : Type) where
  photon : Bool
  readout : Bool
  excess : Bool
  dark : Bool
  background : Bool
  cic : Bool
  readoutLevel : K
  darkLevel : K
  backgroundLevel : K
  qe : K
  pixelGain : Option K
  excessDelta : K
  aduGain : K
  aduBias : Int
  emGain : K

/-- The gains set by the constructor, 168-196: EM gain and ADU gain. -/
def ccdGains (excess : Bool) (em adu : Option K) : K × K :=
  if excess then (em.getD 400, adu.getD (1 / 20)) else (1, adu.getD 8)

/-- The readout level set by the constructor, 198-202. -/
def ccdReadoutLevel (excess : Bool) (level em : K) : K := if excess then level * em else level

/-- What the random generators return for one pixel. -/
structure CcdDraw (K : Type) where
  poisson : K → K
  gamma : K → K → K
  normal : K
  cic : K

/-- The first part of `apply_noise`, 268-293: the signal before the conversion to ADU. -/
def ccdSignal (c : CcdCfg K) (d : CcdDraw K) (x : K) : K :=
  let x := if c.background || c.dark then x + (c.backgroundLevel + c.darkLevel) else x
  let x := if c.cic then x + d.cic else x
  let x := if c.photon then d.poisson x else x
  let x := if c.excess then 1 / c.excessDelta * d.gamma (if c.excessDelta * x < 1 / 10000000000 then 1 / 10000000000 else c.excessDelta * x) c.emGain else x
  let x := if c.readout then x + d.normal * c.readoutLevel else x
  match c.pixelGain with
  | none => x
  | some g => x * g

variable [FloorRing K]

/-- The second part of `apply_noise`, 295-306: conversion to ADU and back. -/
def ccdConvert (c : CcdCfg K) (e : K) : K :=
  if c.photon then
    let a : K := (roundEvenF (e * c.aduGain) : K) + c.aduBias
    let a := if a < 0 then 0 else a
    let a := (a - c.aduBias) / c.aduGain
    let a := if c.excess then a / c.emGain else a
    if c.dark then a - c.darkLevel else a
  else e

/-- `apply_qe` and `apply_noise` for one pixel. -/
def ccdPixel (c : CcdCfg K) (d : CcdDraw K) (x : K) : K :=
  ccdConvert c (ccdSignal c d (if c.qe ≠ 1 then x * c.qe else x))

/-- `apply_binning`, 319-326, with the size of the output (205): `none` is an exception. -/
def ccdBin (binning : Nat) (a : Img K) : Option (Img K) :=
  if 1 < binning then rebin2d a (a.rows / binning) (a.cols / binning) false else some a

/-- What is read out at the end of an exposure, 253-263: the integrated image `a`, configuration and random numbers of each pixel. -/
def ccdFrame (binning : Nat) (c : Nat → Nat → CcdCfg K) (d : Nat → Nat → CcdDraw K) (a : Img K) : Option (Img K) :=
  (ccdBin binning a).map fun b => ⟨b.rows, b.cols, fun i j => ccdPixel (c i j) (d i j) (b.px i j)⟩

end

end Specula
