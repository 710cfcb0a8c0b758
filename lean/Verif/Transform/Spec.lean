import Verif.Transform.Model

/-!
# What the transforms do one after another (specification for C50)

Each transform of torchvision, applied to an image of a given size, gives an image of a new size, and every point of the new image shows a
point of the old one. Coordinates are continuous: the pixel in column `x` and row `y` is centred at `(x + 1/2, y + 1/2)`.
-/

namespace Verif.Transform

section
variable {K : Type} [Field K] [LinearOrder K] [FloorRing K]

/-- The point lies on the image -/
def inBox (s : Size) (p : K × K) : Prop := 0 ≤ p.1 ∧ p.1 < (s.w : K) ∧ 0 ≤ p.2 ∧ p.2 < (s.h : K)

instance (s : Size) (p : K × K) : Decidable (inBox s p) := inferInstanceAs (Decidable (_ ∧ _))

/-- A 2D map in homogeneous coordinates -/
def proj (m : Mat K) (p : K × K) : Option (K × K) :=
  let w := m.g * p.1 + m.h * p.2 + m.i
  if w = 0 then none else some ((m.a * p.1 + m.b * p.2 + m.c) / w, (m.d * p.1 + m.e * p.2 + m.f) / w)

/-- The matrix, with last entry 1, solves the linear equations for mapping `ps` to `qs` -/
def Solves (ps qs : List (K × K)) (m : Mat K) : Prop :=
  m.i = 1 ∧ ∀ pq ∈ ps.zip qs,
    m.a * pq.1.1 + m.b * pq.1.2 + m.c - pq.2.1 * (m.g * pq.1.1 + m.h * pq.1.2) = pq.2.1
    ∧ m.d * pq.1.1 + m.e * pq.1.2 + m.f - pq.2.2 * (m.g * pq.1.1 + m.h * pq.1.2) = pq.2.2

/-- `T.Resize` with one number: the smaller edge gets this length, the other one is scaled alike (rounded down); if it would exceed `max_size`, it
is set to this, and the smaller edge is scaled back -/
def tvResize (s : Size) : ResizeTo → Option Size
  | .both h w => some ⟨h, w⟩
  | .short n max =>
    if s.w ≤ s.h then
      let long := n * s.h / s.w
      match max with
      | none => some ⟨long, n⟩
      | some m => if m ≤ n then none else if long > m then some ⟨m, m * n / long⟩ else some ⟨long, n⟩
    else
      let long := n * s.w / s.h
      match max with
      | none => some ⟨n, long⟩
      | some m => if m ≤ n then none else if long > m then some ⟨m * n / long, m⟩ else some ⟨n, long⟩

/-- The point of the old image shown at a point of the image rotated by `Image.rotate` without changing the size: about the centre, counter-clockwise
(the vertical axis points down) -/
def pilRotate (s : Size) (cos sin : K) (p : K × K) : K × K :=
  let cx := (s.w : K) / 2
  let cy := (s.h : K) / 2
  (cos * (p.1 - cx) - sin * (p.2 - cy) + cx, sin * (p.1 - cx) + cos * (p.2 - cy) + cy)

/-- The size of the rotated image with `expand`: PIL maps the four corners and takes the pixels they span -/
def pilExpand (s : Size) (cos sin : K) : Size :=
  let q1 := pilRotate s cos sin (0, 0)
  let q2 := pilRotate s cos sin ((s.w : K), 0)
  let q3 := pilRotate s cos sin ((s.w : K), (s.h : K))
  let q4 := pilRotate s cos sin (0, (s.h : K))
  ⟨(⌈max (max q1.2 q2.2) (max q3.2 q4.2)⌉ - ⌊min (min q1.2 q2.2) (min q3.2 q4.2)⌋).toNat,
    (⌈max (max q1.1 q2.1) (max q3.1 q4.1)⌉ - ⌊min (min q1.1 q2.1) (min q3.1 q4.1)⌋).toNat⟩

/-- `center_crop`, one direction: how much the image is moved; too small images are padded, half of the missing pixels (rounded down) in front -/
def tvCenter (t s : Nat) : ℤ :=
  if s < t then ((t - s) / 2 : Nat) else -Verif.Float.roundHalfEven (((s : ℚ) - (t : ℚ)) / 2)

/-- `pad_if_needed`, one direction: the missing pixels are added on both sides -/
def tvPad (t : Nat) (pad : Bool) (s : Nat) : Nat := if pad then t - s else 0

/-- The transforms of torchvision: new size, and which point of the old image a point of the new one shows; `none`: an exception -/
def tv (op : Op K) (s : Size) : Option (Size × (K × K → Option (K × K))) :=
  match op with
  | .resize target =>
    (tvResize s target).map fun n => (n, fun p => some (p.1 * ((s.w : K) / (n.w : K)), p.2 * ((s.h : K) / (n.h : K))))
  | .resizedCrop top left height width h w =>
    some (⟨h, w⟩, fun p => some (p.1 * ((width : K) / (w : K)) + (left : K), p.2 * ((height : K) / (h : K)) + (top : K)))
  | .hflip b => some (s, fun p => some (if b then ((s.w : K) - p.1, p.2) else p))
  | .vflip b => some (s, fun p => some (if b then (p.1, (s.h : K) - p.2) else p))
  | .rotate cos sin expand =>
    let n := if expand then pilExpand s cos sin else s
    some (n, fun p => some (pilRotate s cos sin (p.1 - ((n.w : K) - (s.w : K)) / 2, p.2 - ((n.h : K) - (s.h : K)) / 2)))
  | .randomCrop th tw pad padding i j =>
    let l := (padding.getD (0, 0, 0, 0)).1
    let t := (padding.getD (0, 0, 0, 0)).2.1
    let w := s.w + l + (padding.getD (0, 0, 0, 0)).2.2.1
    let h := s.h + t + (padding.getD (0, 0, 0, 0)).2.2.2
    let l' := tvPad tw pad w
    let t' := tvPad th pad h
    let w' := w + 2 * l'
    let h' := h + 2 * t'
    if h' < th ∨ w' < tw then none
    else some (⟨th, tw⟩, fun p =>
      some (if w' = tw ∧ h' = th then (p.1 - (l' : K) - (l : K), p.2 - (t' : K) - (t : K))
        else (p.1 + (j : K) - (l' : K) - (l : K), p.2 + (i : K) - (t' : K) - (t : K))))
  | .perspective _ _ _ bwd => some (s, proj bwd)
  | .noPerspective => some (s, some)
  | .centerCrop th tw => some (⟨th, tw⟩, fun p => some (p.1 - (tvCenter tw s.w : K), p.2 - (tvCenter th s.h : K)))

/-- The size of the final image -/
def tvSize : List (Op K) → Size → Option Size
  | [], s => some s
  | op :: ops, s =>
    match tv op s with
    | none => none
    | some (s', _) => tvSize ops s'

/-- The point of the original image shown at a point of the final image, if one follows the transforms backwards, disregarding the edges of the
images in between -/
def follow : List (Op K) → Size → K × K → Option (K × K)
  | [], _, p => some p
  | op :: ops, s, p =>
    match tv op s with
    | none => none
    | some (s', back) => (follow ops s' p).bind back

/-- The point of the original image that the final image shows at a point, when the transforms are applied one after another; `none`: it shows the
fill colour, as the point comes from outside of one of the images -/
def shown : List (Op K) → Size → K × K → Option (K × K)
  | [], s, p => if inBox s p then some p else none
  | op :: ops, s, p =>
    match tv op s with
    | none => none
    | some (s', back) =>
      match (shown ops s' p).bind back with
      | none => none
      | some q => if inBox s q then some q else none

/-- What the merged transform of a PIL image shows at a point of its output -/
def mergedShown (ops : List (Op K)) (s : Size) (p : K × K) : Option (K × K) :=
  match merge ops s with
  | none => none
  | some (m, d) =>
    if inBox d p then
      match pilSample m p with
      | none => none
      | some q => if inBox s q then some q else none
    else none

/-- The transform is one the theorem applies to, on an image of size `s`. Excluded: images so large that float division is not exact, degenerate
parameters, the `padding` of a random crop (it is ignored by the code), and center crops that pad an image by a number of pixels that is 3
modulo 4 (the code moves it one pixel too far). -/
def OkAt (op : Op K) (s : Size) : Prop :=
  match op with
  | .resize (.short n max) => n * Nat.max s.w s.h < 2 ^ 53 ∧ ∀ m, max = some m → m * n < 2 ^ 53
  | .resize (.both _ _) => True
  | .resizedCrop _ _ height width _ _ => 0 < height ∧ 0 < width
  | .rotate cos sin _ => cos * cos + sin * sin = 1
  | .randomCrop _ _ _ padding _ _ => padding = none
  | .perspective sp ep fwd bwd =>
    Solves sp ep fwd ∧ (∀ m, Solves sp ep m → m = fwd) ∧ Solves ep sp bwd
    ∧ bwd.det ≠ 0 ∧ bwd.inv.i ≠ 0 ∧ ∀ q ∈ ep, bwd.g * q.1 + bwd.h * q.2 + bwd.i ≠ 0
  | .centerCrop th tw => ¬ (s.h < th ∧ (th - s.h) % 4 = 3) ∧ ¬ (s.w < tw ∧ (tw - s.w) % 4 = 3)
  | _ => True

/-- All images in between have pixels, and the transforms are of the kind above -/
def OkAll : List (Op K) → Size → Prop
  | [], s => 0 < s.h ∧ 0 < s.w
  | op :: ops, s => 0 < s.h ∧ 0 < s.w ∧ OkAt op s ∧ ∀ s' back, tv op s = some (s', back) → OkAll ops s'

def Affine : Op K → Prop
  | .perspective _ _ _ _ => False
  | _ => True

end
end Verif.Transform
