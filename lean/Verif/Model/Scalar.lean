import Verif.Lib.Phase

/-!
# Model of `pyzx/graph/scalar.py`
-/

namespace PyZX

/-- `Scalar.__init__`, `/repo/pyzx/graph/scalar.py` lines 53-61.
`floatfactor` is an exact complex number; phases are `Fraction`s (symbolic `Poly` phases are not modelled). -/
structure Scalar where
  power2 : ℤ
  phase : ℚ
  phasenodes : List ℚ
  floatfactor : ℂ
  isUnknown : Bool
  isZero : Bool

namespace Scalar

/-- A fresh `Scalar()`, `/repo/pyzx/graph/scalar.py` lines 55-61. -/
noncomputable def new : Scalar := ⟨0, 0, [], 1, false, false⟩

/-- `Scalar.to_number`, `/repo/pyzx/graph/scalar.py` lines 112-118. -/
noncomputable def toNumber (s : Scalar) : ℂ :=
  if s.isZero then 0
  else ((s.phasenodes.foldl (fun val node => val * (1 + ph node)) (ph s.phase)) * sq2 ^ s.power2)
    * s.floatfactor

/-- `Scalar.copy`, `/repo/pyzx/graph/scalar.py` lines 90-106. -/
noncomputable def copy (s : Scalar) (conjugate : Bool := false) : Scalar :=
  { power2 := s.power2
    phase := if conjugate then -s.phase else s.phase
    phasenodes := if conjugate then s.phasenodes.map (fun p => -p) else s.phasenodes
    floatfactor := if conjugate then (starRingEnd ℂ) s.floatfactor else s.floatfactor
    isUnknown := s.isUnknown
    isZero := s.isZero }

/-- `Scalar.set_unknown`, `/repo/pyzx/graph/scalar.py` lines 203-205. -/
def setUnknown (s : Scalar) : Scalar := { s with isUnknown := true, phasenodes := [] }

/-- `Scalar.add_power`, `/repo/pyzx/graph/scalar.py` lines 207-209. -/
def addPower (s : Scalar) (n : ℤ) : Scalar := { s with power2 := s.power2 + n }

/-- `Scalar.add_phase`, `/repo/pyzx/graph/scalar.py` lines 210-212. -/
def addPhase (s : Scalar) (p : ℚ) : Scalar := { s with phase := mod2 (s.phase + p) }

/-- `Scalar.add_node`, `/repo/pyzx/graph/scalar.py` lines 213-220. -/
def addNode (s : Scalar) (node : ℚ) : Scalar :=
  let s1 := if node = 0 then { s with power2 := s.power2 + 2 }
            else { s with phasenodes := s.phasenodes ++ [node] }
  if node = 1 then { s1 with isZero := true } else s1

open Classical in
/-- `Scalar.add_float`, `/repo/pyzx/graph/scalar.py` lines 221-224. -/
noncomputable def addFloat (s : Scalar) (f : ℂ) : Scalar :=
  let s1 := if f = 0 then { s with isZero := true } else s
  { s1 with floatfactor := s1.floatfactor * f }

/-- `Scalar.mult_with_scalar`, `/repo/pyzx/graph/scalar.py` lines 226-233. -/
noncomputable def multWithScalar (s o : Scalar) : Scalar :=
  { power2 := s.power2 + o.power2
    phase := mod2 (s.phase + o.phase)
    phasenodes := s.phasenodes ++ o.phasenodes
    floatfactor := s.floatfactor * o.floatfactor
    isZero := if o.isZero then true else s.isZero
    isUnknown := if o.isUnknown then true else s.isUnknown }

/-- The tail of `Scalar.add_spider_pair` from the final swap on,
`/repo/pyzx/graph/scalar.py` lines 254-273 (`math.cos(p1)` in line 268 is kept as written). -/
noncomputable def addSpiderPairTail (s : Scalar) (p1 p2 : ℚ) : Scalar :=
  if p1 = 1 / 2 then (s.addPhase (1 / 4)).addNode (mod2 (p2 - 1 / 2))
  else if p1 = 3 / 2 then (s.addPhase (7 / 4)).addNode (mod2 (p2 - 3 / 2))
  else if mod2 (p1 + p2) = 0 then
    if p1.den = 4 then
      if p1.num = 3 ∨ p1.num = 5 then s.addPhase 1 else s
    else (s.addPower 1).addFloat ((Real.cos (p1 : ℝ) : ℝ) : ℂ)
  else (s.addPower (-1)).addFloat (1 + ph p1 + ph p2 - ph (p1 + p2))

/-- `Scalar.add_spider_pair`, `/repo/pyzx/graph/scalar.py` lines 235-273.
Symbolic phases (lines 249-251) are not modelled. -/
noncomputable def addSpiderPair (s : Scalar) (q1 q2 : ℚ) : Scalar :=
  let (p1, p2) := if q2 = 0 ∨ q2 = 1 then (q2, q1) else (q1, q2)
  if p1 = 0 then s.addPower 1
  else if p1 = 1 then (s.addPower 1).addPhase p2
  else if p2.den = 2 then s.addSpiderPairTail p2 p1
  else s.addSpiderPairTail p1 p2

end Scalar
end PyZX
