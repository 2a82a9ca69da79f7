import Verif.Py
import Verif.Model.S2fft
import Verif.Model.Samples
import Verif.Model.Filters
import Verif.Model.Base
import Verif.Model.Construct
import Verif.Model.Wavelet
import Verif.Model.WaveletC
import Verif.Model.Precompute
import Verif.Model.PrecomputeTorch
import Verif.Spec
import Verif.Lemmas.Samples
import Verif.Lemmas.Lists
import Verif.Lemmas.Arrays
import Verif.Lemmas.KLam
import Verif.Lemmas.Axisym
import Verif.Lemmas.Tiling
import Verif.Lemmas.Loops
import Verif.Lemmas.Directional
import Verif.Lemmas.Built
import Verif.Lemmas.Quad
import Verif.Lemmas.QuadTwo
import Verif.Lemmas.Overshoot
import Verif.Lemmas.Dyadic
import Verif.Lemmas.IntTable
import Verif.Lemmas.Table2
import Verif.Lemmas.Table3
import Verif.Lemmas.Table5
import Verif.Lemmas.Table8
import Verif.Lemmas.Table10
import Verif.Lemmas.Harm
import Verif.Props.Samples
import Verif.Lemmas.Progs
import Verif.Lemmas.Progs2
import Verif.Lemmas.Looped
import Verif.Props.Filters
import Verif.Props.Domain
import Verif.Props.Formulas
import Verif.Props.Overshoot
import Verif.Usage
import Verif.Lemmas.Coeff
import Verif.Lemmas.Unified
import Verif.Lemmas.Transform
import Verif.Lemmas.Run
import Verif.Toy
import Verif.Props.Transforms
import Verif.Props.Harmonic
import Verif.Lemmas.Linear
import Verif.Props.Linear
import Verif.Props.Equiv
import Verif.Props.Use
import Verif.Props.Wrap
import Verif.Props.Dyadic
import Verif.Props.Top
import Verif.Props.Fragment
import Verif.Props.Custom
import Verif.Props.Stability
import Verif.Props.Gradient
import Verif.Props.Steer
import Verif.Props.Real
import Verif.Props.Nested
import Verif.Props.Minimal
import Verif.Sphere.Wigner
import Verif.Sphere.Harmonics
import Verif.Sphere.Engine
import Verif.Props.Sphere
import Verif.Sphere.Ortho
import Verif.Sphere.Integral
import Verif.Sphere.Rotation
import Verif.Props.Energy
import Verif.Props.Rotate
import Verif.Sphere.Legendre
import Verif.Props.Pixel
import Verif.Props.Synth
import Verif.Props.RealImage
import Verif.Props.Moments
import Verif.Props.Field
import Verif.Props.Many
import Verif.Props.Orient
import Verif.Props.Weight
import Verif.Props.Storage
import Verif.Model.Api
import Verif.Props.Defaults
import Verif.Props.DefaultsForward
import Verif.Model.Ieee
import Verif.Props.Rounding
import Verif.Model.IeeeFilters
import Verif.Props.RoundedFilters
import Verif.Props.RoundedDirectional
import Verif.Props.RoundedSamples
import Verif.Props.RoundedErrors
import Verif.Props.RoundedFew
import Verif.Props.RoundedTransforms
import Verif.Props.RoundedLooped
import Verif.Props.RoundedPipeline
import Verif.Props.RoundedJax
import Verif.Props.RoundedBackends
import Verif.Props.RoundedBase
import Verif.Props.Ieee754
import Verif.Props.RoundedLoopedBase
import Verif.Props.RoundedFlm
import Verif.Props.RoundedSpin
import Verif.Props.Ieee754Single
import Verif.Props.Ieee754SingleOps
import Verif.Props.RoundedSingle
import Verif.Props.RoundedSingleJax
import Verif.Props.RoundedSinglePipeline
import Verif.Props.RoundedThree
import Verif.Props.RoundedThreeFilters
import Verif.Props.RoundedReturn
import Verif.Props.RoundedFour
import Verif.Props.RoundedFourFilters
import Verif.Props.RoundingOther
import Verif.Props.RoundedEight
import Verif.Props.RoundedPoison
import Verif.Props.RoundedEightFilters
import Verif.Props.RoundedOtherPipeline
import Verif.Props.RoundedOtherJax
import Verif.Props.RoundedPoisonOther
import Verif.Props.RoundedOverflow
import Verif.Props.RoundedSevenReturn
import Verif.Props.RoundedOtherLooped
import Verif.Props.RoundedOtherSingle
import Verif.Props.RoundedOtherSinglePipeline
import Verif.Props.RoundedOtherLoopedBase
import Verif.Props.RoundedOtherSpin
import Verif.Props.RoundedSpinOverflow
import Verif.Props.RoundedSpinLooped
import Verif.Props.SpinTrip
import Verif.Props.RoundedGuard
import Verif.Props.RoundedPow
