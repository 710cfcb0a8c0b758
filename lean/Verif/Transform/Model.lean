import Verif.Float.Model
import Mathlib.Algebra.Order.Floor.Ring
import Mathlib.Tactic.FieldSimp
import Mathlib.Tactic.Ring
import Mathlib.Tactic.Linarith

/-!
# Merged image transforms

Source: /repo src/megatron/energon/transforms/mappers.py and merge.py.

The numbers of the matrices are elements of any ordered field with a floor function (numpy: float64; rounding of the matrix entries is not
modelled); image sizes are natural numbers. The random draws (flip or not, offsets, angle, corner points) are arguments of the
transforms, so the theorems hold for every draw.
Not modelled: interpolation, colours, the solution process of the linear equations (any solution is allowed).
-/

namespace Verif.Transform

open Verif.Float

/-- A 3×3 matrix -/
structure Mat (K : Type) where
  a : K
  b : K
  c : K
  d : K
  e : K
  f : K
  g : K
  h : K
  i : K
deriving DecidableEq

@[ext] theorem Mat.ext' {K : Type} {m n : Mat K} (ha : m.a = n.a) (hb : m.b = n.b) (hc : m.c = n.c) (hd : m.d = n.d) (he : m.e = n.e)
    (hf : m.f = n.f) (hg : m.g = n.g) (hh : m.h = n.h) (hi : m.i = n.i) : m = n := by
  cases m; cases n; simp_all

section
variable {K : Type} [Field K]

/-- `m @ n` -/
def Mat.mul (m n : Mat K) : Mat K where
  a := m.a * n.a + m.b * n.d + m.c * n.g
  b := m.a * n.b + m.b * n.e + m.c * n.h
  c := m.a * n.c + m.b * n.f + m.c * n.i
  d := m.d * n.a + m.e * n.d + m.f * n.g
  e := m.d * n.b + m.e * n.e + m.f * n.h
  f := m.d * n.c + m.e * n.f + m.f * n.i
  g := m.g * n.a + m.h * n.d + m.i * n.g
  h := m.g * n.b + m.h * n.e + m.i * n.h
  i := m.g * n.c + m.h * n.f + m.i * n.i

/-- `np.eye(3)` -/
def Mat.eye : Mat K := ⟨1, 0, 0, 0, 1, 0, 0, 0, 1⟩

def Mat.det (m : Mat K) : K :=
  m.a * (m.e * m.i - m.f * m.h) - m.b * (m.d * m.i - m.f * m.g) + m.c * (m.d * m.h - m.e * m.g)

/-- `np.linalg.inv(m)` for a regular matrix -/
def Mat.inv (m : Mat K) : Mat K where
  a := (m.e * m.i - m.f * m.h) / m.det
  b := (m.c * m.h - m.b * m.i) / m.det
  c := (m.b * m.f - m.c * m.e) / m.det
  d := (m.f * m.g - m.d * m.i) / m.det
  e := (m.a * m.i - m.c * m.g) / m.det
  f := (m.c * m.d - m.a * m.f) / m.det
  g := (m.d * m.h - m.e * m.g) / m.det
  h := (m.b * m.g - m.a * m.h) / m.det
  i := (m.a * m.e - m.b * m.d) / m.det

/-- `m / k` -/
def Mat.over (m : Mat K) (k : K) : Mat K :=
  ⟨m.a / k, m.b / k, m.c / k, m.d / k, m.e / k, m.f / k, m.g / k, m.h / k, m.i / k⟩

/-- mappers.py:27-32 -/
def translate (x y : K) : Mat K := ⟨1, 0, x, 0, 1, y, 0, 0, 1⟩

/-- mappers.py:34-39, for the cosine and sine of the angle -/
def rotate (cos sin : K) : Mat K := ⟨cos, sin, 0, -sin, cos, 0, 0, 0, 1⟩

/-- mappers.py:41-46 -/
def scale (x y : K) : Mat K := ⟨x, 0, 0, 0, y, 0, 0, 0, 1⟩

/-- mappers.py:55-59 -/
def hflip : Mat K := ⟨-1, 0, 0, 0, 1, 0, 0, 0, 1⟩

/-- mappers.py:61-65 -/
def vflip : Mat K := ⟨1, 0, 0, 0, -1, 0, 0, 0, 1⟩

end

/-- `dst_size`: height and width -/
structure Size where
  h : Nat
  w : Nat
deriving DecidableEq, Repr

/-- The `size` argument of `T.Resize` -/
inductive ResizeTo where
  /-- one number: the smaller edge; and `max_size` -/
  | short (n : Nat) (max : Option Nat)
  | both (h w : Nat)

/-- A transform with its random draws -/
inductive Op (K : Type) where
  | resize (target : ResizeTo)
  /-- the box drawn, and the configured size -/
  | resizedCrop (top left height width : Nat) (h w : Nat)
  | hflip (doFlip : Bool)
  | vflip (doFlip : Bool)
  | rotate (cos sin : K) (expand : Bool)
  /-- configured size, `pad_if_needed`, `padding` (left, top, right, bottom), offsets drawn (down, right) -/
  | randomCrop (th tw : Nat) (padIfNeeded : Bool) (padding : Option (Nat × Nat × Nat × Nat)) (i j : Nat)
  /-- corner points before and after, the solution of the equations of the code, the solution of the equations of torchvision -/
  | perspective (startpoints endpoints : List (K × K)) (fwd bwd : Mat K)
  | noPerspective
  | centerCrop (th tw : Nat)

/-- mappers.py:87-109 `_compute_resized_output_size`; `none`: `ValueError`. The divisions are those of floats. -/
def resizedSize (s : Size) : ResizeTo → Option Size
  | .both h w => some ⟨h, w⟩
  | .short n max =>
    let short := if s.w ≤ s.h then s.w else s.h
    let long := if s.w ≤ s.h then s.h else s.w
    let newLong := pyInt (pyDiv (n * long) short)
    let pick (x : Nat × Nat) : Size := if s.w ≤ s.h then ⟨x.2, x.1⟩ else ⟨x.1, x.2⟩
    match max with
    | none => some (pick (n, newLong))
    | some m =>
      if m ≤ n then none
      else if newLong > m then some (pick (pyInt (pyDiv (m * n) newLong), m))
      else some (pick (n, newLong))

section
variable {K : Type} [Field K] [LinearOrder K] [FloorRing K]

/-- mappers.py:250-262: the size of the rotated image -/
def rotatedSize (s : Size) (cos sin : K) (expand : Bool) : Size :=
  if expand then
    let w := |sin| * (s.h : K) + |cos| * (s.w : K)
    let h := |sin| * (s.w : K) + |cos| * (s.h : K)
    ⟨(⌈(s.h : K) / 2 + h / 2⌉ - ⌊(s.h : K) / 2 - h / 2⌋).toNat, (⌈(s.w : K) / 2 + w / 2⌉ - ⌊(s.w : K) / 2 - w / 2⌋).toNat⟩
  else s

/-- mappers.py:405-406: the shift of the center crop along one direction, `round(float(t - s) / 2)` -/
def centerShift (t s : Nat) : ℤ := roundHalfEven (((t : ℚ) - (s : ℚ)) / 2)

/-- mappers.py:292-301: the padding of the random crop, for one direction: target, pad_if_needed, size -/
def cropPad (t : Nat) (pad : Bool) (s : Nat) : Nat := if pad ∧ s < t then t - s else 0

/-- mappers.py, the methods `apply_transform`: resize 111-127; resized crop 182-198; flips 210-236; rotation 244-269; random crop 286-324 (its `padding`
is not looked at); perspective 364-378 with 339-362; center crop 395-411. `none`: an exception. -/
def Op.apply (op : Op K) (m : Mat K) (s : Size) : Option (Mat K × Size) :=
  match op with
  | .resize target =>
    (resizedSize s target).map fun n => ((scale ((n.w : K) / (s.w : K)) ((n.h : K) / (s.h : K))).mul m, n)
  | .resizedCrop top left height width h w =>
    some ((scale ((w : K) / (width : K)) ((h : K) / (height : K))).mul ((translate (-(left : K)) (-(top : K))).mul m), ⟨h, w⟩)
  | .hflip b => some (if b then ((translate (s.w : K) 0).mul (Transform.hflip.mul m), s) else (m, s))
  | .vflip b => some (if b then ((translate 0 (s.h : K)).mul (Transform.vflip.mul m), s) else (m, s))
  | .rotate cos sin expand =>
    let n := rotatedSize s cos sin expand
    some (((translate ((n.w : K) / 2) ((n.h : K) / 2)).mul (Transform.rotate cos sin)).mul
      (translate (-((s.w : K) / 2)) (-((s.h : K) / 2))) |>.mul m, n)
  | .randomCrop th tw pad _ i j =>
    let px := cropPad tw pad s.w
    let m := if px = 0 then m else (translate (px : K) 0).mul m
    let w := s.w + 2 * px
    let py := cropPad th pad s.h
    let m := if py = 0 then m else (translate 0 (py : K)).mul m
    let h := s.h + 2 * py
    if h < th ∨ w < tw then none
    else
      let m := if w = tw ∧ h = th then m else (translate (-(j : K)) (-(i : K))).mul m
      some (m, if pad then ⟨th, tw⟩ else ⟨min th h, min tw w⟩)
  | .perspective _ _ fwd _ => some (fwd.mul m, s)
  | .noPerspective => some (m, s)
  | .centerCrop th tw =>
    some ((translate (centerShift tw s.w : K) (centerShift th s.h : K)).mul m, ⟨th, tw⟩)

/-- mappers.py:213, 230: `torch.rand(1) < p`, whether to flip -/
def flips (r p : K) : Bool := r < p

/-- mappers.py:370: `torch.rand(1) <= p`, whether to apply the perspective -/
def perspectives (r p : K) : Bool := r ≤ p

/-- merge.py:64-73: the loop of `forward` -/
def mergeFrom : List (Op K) → Mat K → Size → Option (Mat K × Size)
  | [], m, s => some (m, s)
  | op :: ops, m, s =>
    match op.apply m s with
    | none => none
    | some (m', s') => mergeFrom ops m' s'

def merge (ops : List (Op K)) (s : Size) : Option (Mat K × Size) := mergeFrom ops Mat.eye s

/-- `np.allclose(matrix[2, :2], [0, 0])`: absolute tolerance 1e-8 -/
def close (m : Mat K) : Prop := |m.g| ≤ 1 / 10 ^ 8 ∧ |m.h| ≤ 1 / 10 ^ 8

instance (m : Mat K) : Decidable (close m) := inferInstanceAs (Decidable (_ ∧ _))

/-- merge.py:75-109 (PIL images): the point of the input image an output point shows. `none`: an exception (singular matrix), or a division
by zero. PIL evaluates the affine or the perspective map at the centres of the output pixels. -/
def pilSample (m : Mat K) (p : K × K) : Option (K × K) :=
  if m.det = 0 then none
  else if m.inv.i = 0 then none
  else
    let n := m.inv.over m.inv.i
    if close n then some (n.a * p.1 + n.b * p.2 + n.c, n.d * p.1 + n.e * p.2 + n.f)
    else
      let w := n.g * p.1 + n.h * p.2 + 1
      if w = 0 then none else some ((n.a * p.1 + n.b * p.2 + n.c) / w, (n.d * p.1 + n.e * p.2 + n.f) / w)

/-- merge.py:125-131: the matrix in coordinates from -1 to 1 -/
def normalised (m : Mat K) (src dst : Size) : Mat K :=
  ((((translate (-1) (-1)).mul (scale (2 / (dst.w : K)) (2 / (dst.h : K)))).mul m).mul
    (scale ((src.w : K) / 2) ((src.h : K) / 2))).mul (translate 1 1)

/-- `torch.nn.functional.affine_grid` (`align_corners=False`): the coordinate of the pixel with number `k` of `n`, in the range from -1 to 1 -/
def gridCentre (k n : Nat) : K := (2 * (k : K) + 1) / (n : K) - 1

/-- `torch.linspace(-1, 1, n)[k]` -/
def linspace (k n : Nat) : K := if n = 1 then -1 else -1 + 2 * (k : K) / ((n : K) - 1)

/-- merge.py:133-157 (tensors): the point of the input image the output pixel in column `x` and row `y` shows. `grid_sample`
(`align_corners=False`) takes -1 and 1 as the edges of the image. -/
def tensorSample (m : Mat K) (src dst : Size) (x y : Nat) : Option (K × K) :=
  let m := normalised m src dst
  if m.det = 0 then none
  else
    let n := m.inv
    let back (q : K × K) : K × K := ((q.1 + 1) * (src.w : K) / 2, (q.2 + 1) * (src.h : K) / 2)
    if close n then
      let px := gridCentre x dst.w
      let py := gridCentre y dst.h
      some (back (n.a * px + n.b * py + n.c, n.d * px + n.e * py + n.f))
    else
      let px := linspace x dst.w
      let py := linspace y dst.h
      let w := n.g * px + n.h * py + n.i
      if w = 0 then none else some (back ((n.a * px + n.b * py + n.c) / w, (n.d * px + n.e * py + n.f) / w))

end

/-! ## Interpolation and fill value -/

/-- merge.py:21-45, one of the two values (they are treated alike): the first value given, and an error for a different one later. Outer
`none`: `ValueError`. -/
def common {V : Type} [DecidableEq V] : List (Option V) → Option V → Option (Option V)
  | [], acc => some acc
  | none :: l, acc => common l acc
  | some v :: l, acc =>
    let acc' := acc.getD v
    if v ≠ acc' then none else common l (some acc')

/-- merge.py:19-48 `__init__`: interpolation (with its default) and fill value -/
def construct {V F : Type} [DecidableEq V] [DecidableEq F] (bilinear : V) (interpolations : List (Option V)) (fills : List (Option F)) :
    Option (V × Option F) :=
  match common fills none, common interpolations none with
  | some f, some i => some (i.getD bilinear, f)
  | _, _ => none

/-! ## Parameters of the random resized crop -/

/-- One try of `get_params` (mappers.py:151-166): the drawn width and height, and the offsets drawn if these fit -/
structure Try where
  w : ℤ
  h : ℤ
  i : Nat
  j : Nat

/-- mappers.py:139-180 `get_params` → (top, left, height, width). The ratios are rational numbers; `int(round(w / r))` is computed exactly. -/
def cropParams (s : Size) (rmin rmax : ℚ) : List Try → ℤ × ℤ × ℤ × ℤ
  | t :: ts =>
    if 0 < t.w ∧ t.w ≤ s.w ∧ 0 < t.h ∧ t.h ≤ s.h then (t.i, t.j, t.h, t.w)
    else cropParams s rmin rmax ts
  | [] =>
    let ratio : ℚ := (s.w : ℚ) / (s.h : ℚ)
    let hw : ℤ × ℤ :=
      if ratio < rmin then (roundHalfEven ((s.w : ℚ) / rmin), s.w)
      else if ratio > rmax then (s.h, roundHalfEven ((s.h : ℚ) * rmax))
      else (s.h, s.w)
    ((s.h - hw.1) / 2, (s.w - hw.2) / 2, hw.1, hw.2)

end Verif.Transform
