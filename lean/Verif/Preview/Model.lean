/-!
# C117: `energon preview`

Source: /repo src/megatron/energon/tools/preview.py. The text itself is not modelled, only whether it can be made, the size of pictures, and what is shown in which order.

Simplifications: the sizes of pictures are computed with exact fractions (the code uses doubles); `repr` of values does not raise; `torch.nn.functional.interpolate` with mode `area` raises exactly for sizes
that are not positive and for pictures without pixels.
-/

namespace Verif.Preview

/-- A value of a sample -/
inductive V where
  /-- A tensor with its shape, and whether the gray picture made of it has one value only when it is resized to this height and width -/
  | tensor (shape : List Nat) (flat : Int → Int → Bool)
  /-- a string, number, boolean or None -/
  | plain
  | bytes
  /-- a list or tuple -/
  | seq (l : List V)
  /-- a named tuple -/
  | named (l : List V)
  /-- anything else: dicts, dataclasses, ... -/
  | other

/-- preview.py:25-33: the size of the picture (height, width), if the tensor is taken for one -/
def picture : List Nat → Option (Nat × Nat)
  | [h, w] => some (h, w)
  | [c, h, w] => if c = 1 ∨ c = 3 ∨ c = 4 then some (h, w) else none
  | _ => none

/-- `int(a / b)` for `b > 0`: towards zero -/
def trunc (a b : Int) : Int := a.tdiv b

/-- preview.py:37-45: the height and width shown, for a terminal with `tw` columns and `th` lines and this indentation. `procrustes` is 0.3. For a picture with pixels and a terminal with lines. -/
def fit (tw th : Nat) (indent : Nat) (h w : Nat) : Int × Int :=
  let dw : Int := tw - indent
  let dh : Int := th
  if (w : Int) * dh < dw * h then (trunc (dw * 3 * h) (10 * w), dw)
  else (dh, trunc (dh * 10 * w) (3 * h))

/-- preview.py:36-57: whether the picture can be made. Without pixels: ZeroDivisionError or an exception of torch; with one value: 0 / 0 is NaN, and `int(nan)` is a ValueError -/
def pictureShows (tw th indent : Nat) (h w : Nat) (flat : Int → Int → Bool) : Bool :=
  let s := fit tw th indent h w
  0 < h && 0 < w && 0 < s.1 && 0 < s.2 && !flat s.1 s.2

mutual
/-- preview.py:21-85 `to_str`: whether it returns -/
def toStr (tw th : Nat) (indent : Nat) : V → Bool
  | .tensor shape flat =>
    match picture shape with
    | some (h, w) => pictureShows tw th indent h w flat
    | none => true
  | .plain => true
  | .bytes => true
  | .seq l => allStr tw th (indent + 4) l
  /- preview.py:67-74: `value._fields` are strings, which have no `name`: AttributeError with the first element. `f"{field.name}=..."` is evaluated from left to right. -/
  | .named l => l.isEmpty
  | .other => true
def allStr (tw th : Nat) (indent : Nat) : List V → Bool
  | [] => true
  | v :: l => toStr tw th indent v && allStr tw th indent l
end

/-- A sample: names and values of its fields -/
abbrev Sample := List (String × V)

/-- preview.py:88-93 `pprint` -/
def shows (tw th : Nat) (s : Sample) : Bool :=
  s.all fun f => f.1 == "__restore_key__" || f.1 == "__subflavor__" || f.1 == "__subflavors__" || toStr tw th 0 f.2

/-- A split part: `load_config` raises `EmptyDatasetError`, or another exception, or there is a dataset with these samples, whose iteration may end with an exception -/
inductive Part where
  | empty
  | broken
  | data (samples : List Sample) (fails : Bool)

inductive Event where
  /-- "Dataset ... is empty. Skipping." -/
  | skipping (part : String)
  /-- "Sample idx" with all fields -/
  | sample (part : String) (idx : Nat)
  /-- "Exiting Preview" -/
  | exiting
deriving DecidableEq

inductive Outcome where
  | done
  /-- ClickException: "Validation failed with errors, see logs for details." -/
  | failed
  /-- the exception of `load_config` -/
  | raised
deriving DecidableEq

/-- preview.py:130-138: the samples of a part from number `idx` on; `yes q`: the answer to the question number `q` ("Continue?"; no, or Ctrl-C) -/
def showPart (tw th : Nat) (yes : Nat → Bool) (part : String) (fails : Bool) : Nat → List Sample → Nat → List Event × Outcome × Nat
  | _, [], q => ([], if fails then .failed else .done, q)
  | idx, s :: l, q =>
    if shows tw th s then
      if yes q then
        let r := showPart tw th yes part fails (idx + 1) l (q + 1)
        (.sample part idx :: r.1, r.2)
      else ([.sample part idx, .exiting], .done, q + 1)
    else ([], .failed, q)

/-- preview.py:114-138: the parts one after the other -/
def preview (tw th : Nat) (yes : Nat → Bool) : List (String × Part) → Nat → List Event × Outcome
  | [], _ => ([], .done)
  | (n, .empty) :: ps, q => (.skipping n :: (preview tw th yes ps q).1, (preview tw th yes ps q).2)
  | (_, .broken) :: _, _ => ([], .raised)
  | (n, .data ss fails) :: ps, q =>
    match showPart tw th yes n fails 0 ss q with
    | (es, .done, q') => (es ++ (preview tw th yes ps q').1, (preview tw th yes ps q').2)
    | (es, o, _) => (es, o)

end Verif.Preview
