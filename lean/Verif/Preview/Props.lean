import Verif.Preview.Model
import Mathlib.Tactic.Ring
import Mathlib.Tactic.Linarith

/-!
# C117: `energon preview` shows the samples of the dataset

In words: the samples of the given split parts are shown in order, one after each "Continue?" that is answered by yes; when the user answers no, the preview is over. Every sample can be shown, and pictures
are resized to fit the terminal.
-/

namespace Verif.Preview

variable {tw th : Nat} {yes : Nat → Bool}

/-! ### Specification -/

/-- All samples of the parts, in order, with notes for empty parts -/
def allOf : List (String × Part) → List Event
  | [] => []
  | (n, .empty) :: ps => .skipping n :: allOf ps
  | (_, .broken) :: ps => allOf ps
  | (n, .data ss _) :: ps => (List.range ss.length).map (.sample n) ++ allOf ps

/-- Without what the command says about itself -/
def samplesOf (l : List Event) : List (String × Nat) := l.filterMap fun | .sample n i => some (n, i) | _ => none

/-- Nothing is shown after the user has answered no -/
def StopsAtNo (l : List Event) : Prop := ∀ a b, l = a ++ [.exiting] ++ b → samplesOf b = []

/-- Parts with datasets whose samples can be read and shown -/
def Shown (tw th : Nat) (ps : List (String × Part)) : Prop := ∀ p ∈ ps, ∀ n q, p = (n, q) → q = .empty ∨ ∃ ss, q = .data ss false ∧ ∀ s ∈ ss, shows tw th s = true

/-- **C117** in full -/
def C117_statement : Prop :=
  ∀ (tw th : Nat) (yes : Nat → Bool) (ps : List (String × Part)) (q : Nat), Shown tw th ps → StopsAtNo (preview tw th yes ps q).1 ∧ samplesOf (preview tw th yes ps q).1 <+: samplesOf (allOf ps)

/-! ### One part -/

/-- How many samples of a part are shown: until the first no -/
def untilNo (yes : Nat → Bool) (q : Nat) : Nat → Nat
  | 0 => 0
  | n + 1 => if yes q then untilNo yes (q + 1) n + 1 else 1

theorem untilNo_le (q n : Nat) : untilNo yes q n ≤ n := by
  induction n generalizing q with
  | zero => exact Nat.le_refl _
  | succ n ih =>
    unfold untilNo
    split
    · have := ih (q + 1); omega
    · omega

theorem showPart_ok (n : String) (ss : List Sample) (hs : ∀ s ∈ ss, shows tw th s = true) (idx q : Nat) :
    (showPart tw th yes n false idx ss q).2.1 = .done ∧
    (showPart tw th yes n false idx ss q).1 = (List.range (untilNo yes q ss.length)).map (fun i => .sample n (idx + i)) ++ (if ∀ i < ss.length, yes (q + i) = true then [] else [.exiting]) := by
  induction ss generalizing idx q with
  | nil => exact ⟨rfl, rfl⟩
  | cons s l ih =>
    have h1 := hs s (List.mem_cons_self ..)
    unfold showPart
    rw [if_pos h1]
    cases hy : yes q with
    | true =>
      obtain ⟨h2, h3⟩ := ih (fun s hs' => hs s (List.mem_cons_of_mem _ hs')) (idx + 1) (q + 1)
      rw [if_pos rfl]
      refine ⟨h2, ?_⟩
      simp only
      rw [h3]
      have e : (∀ i < l.length + 1, yes (q + i) = true) ↔ ∀ i < l.length, yes (q + 1 + i) = true := by
        constructor
        · intro h i hi
          have := h (i + 1) (by omega)
          rwa [show q + 1 + i = q + (i + 1) by omega]
        · intro h i hi
          cases i with
          | zero => exact hy
          | succ i => have := h i (by omega); rwa [show q + (i + 1) = q + 1 + i by omega]
      rw [List.length_cons, untilNo, if_pos hy, List.range_succ_eq_map, List.map_cons, List.map_map, List.cons_append]
      congr 1
      congr 1
      · refine List.map_congr_left fun i _ => ?_
        simp only [Function.comp, Event.sample.injEq, true_and]
        omega
      · by_cases h : ∀ i < l.length, yes (q + 1 + i) = true
        · rw [if_pos h, if_pos (e.2 h)]
        · rw [if_neg h, if_neg (fun h' => h (e.1 h'))]
    | false =>
      rw [if_neg (by simp)]
      refine ⟨rfl, ?_⟩
      rw [List.length_cons, untilNo, hy, if_neg (by simp), if_neg]
      · rfl
      · intro h
        have := h 0 (by simp)
        rw [Nat.add_zero, hy] at this
        cases this

/-- **C117 for one part**: its samples are shown in order from the first one, up to the one after which the user answers no; "Exiting Preview" is said exactly then. -/
theorem C117_part (n : String) (ss : List Sample) (hs : ∀ s ∈ ss, shows tw th s = true) (q : Nat) :
    (preview tw th yes [(n, .data ss false)] q).1 =
      (List.range (untilNo yes q ss.length)).map (.sample n) ++ (if ∀ i < ss.length, yes (q + i) = true then [] else [.exiting]) ∧
    StopsAtNo (preview tw th yes [(n, .data ss false)] q).1 ∧ (preview tw th yes [(n, .data ss false)] q).2 = .done := by
  obtain ⟨h1, h2⟩ := showPart_ok (yes := yes) n ss hs 0 q
  have e : preview tw th yes [(n, .data ss false)] q = ((showPart tw th yes n false 0 ss q).1, .done) := by
    unfold preview
    generalize hr : showPart tw th yes n false 0 ss q = r at h1
    obtain ⟨es, o, q'⟩ := r
    simp only at h1
    subst h1
    simp [preview]
  have h3 : (preview tw th yes [(n, .data ss false)] q).1 =
      (List.range (untilNo yes q ss.length)).map (.sample n) ++ (if ∀ i < ss.length, yes (q + i) = true then [] else [.exiting]) := by
    rw [e]
    simp only
    rw [h2]
    congr 1
    exact List.map_congr_left fun i _ => by rw [Nat.zero_add]
  refine ⟨h3, ?_, by rw [e]⟩
  intro a b hab
  rw [h3] at hab
  have hno : Event.exiting ∉ (List.range (untilNo yes q ss.length)).map (Event.sample n) := by simp
  split at hab
  · rw [List.append_nil] at hab
    exfalso
    apply hno
    rw [hab]
    simp
  · rcases List.eq_nil_or_concat b with rfl | ⟨b', x, rfl⟩
    · rfl
    · exfalso
      have h4 : (List.range (untilNo yes q ss.length)).map (Event.sample n) ++ [Event.exiting] = (a ++ [.exiting] ++ b') ++ [x] := by
        rw [hab]; simp
      have h5 := List.append_inj' h4 rfl
      apply hno
      rw [h5.1]
      simp

/-- **C117, all samples**: a user who always answers yes sees all samples of all parts in order, and is told which parts are empty. -/
theorem C117_all (ps : List (String × Part)) (hp : Shown tw th ps) (hy : ∀ q, yes q = true) (q : Nat) : preview tw th yes ps q = (allOf ps, .done) := by
  induction ps generalizing q with
  | nil => rfl
  | cons p ps ih =>
    obtain ⟨n, c⟩ := p
    have ih := ih fun p hp' => hp p (List.mem_cons_of_mem _ hp')
    rcases hp _ (List.mem_cons_self ..) n c rfl with rfl | ⟨ss, rfl, hs⟩
    · unfold preview
      rw [ih]
      rfl
    · obtain ⟨h1, h2⟩ := showPart_ok (yes := yes) n ss hs 0 q
      unfold preview
      generalize hr : showPart tw th yes n false 0 ss q = r at h1 h2
      obtain ⟨es, o, q'⟩ := r
      simp only at h1 h2
      subst h1
      simp only
      rw [ih, h2, if_pos (fun i _ => hy _), List.append_nil]
      have hu : ∀ m q, untilNo yes q m = m := by
        intro m
        induction m with
        | zero => intro q; rfl
        | succ m ih => intro q; rw [untilNo, if_pos (hy q), ih]
      rw [hu]
      simp only [allOf]
      congr 2
      exact List.map_congr_left fun i _ => by rw [Nat.zero_add]

/-- **C117 is false of the code** for several parts: after "no" (and "Exiting Preview") the first sample of the next part is shown, whatever the parts are. -/
theorem C117_violated_exit (n m : String) (s t : Sample) (ss ts : List Sample) (hs : shows tw th s = true) (ht : shows tw th t = true) (fails fails' : Bool) (ps : List (String × Part)) (q : Nat) (hno : yes q = false) :
    ∃ b, (preview tw th yes ((n, .data (s :: ss) fails) :: (m, .data (t :: ts) fails') :: ps) q).1 = [.sample n 0, .exiting] ++ .sample m 0 :: b := by
  unfold preview
  rw [showPart, if_pos hs, hno, if_neg (by simp)]
  simp only
  unfold preview
  rw [showPart, if_pos ht]
  cases yes (q + 1) with
  | false => rw [if_neg (by simp)]; exact ⟨_, rfl⟩
  | true =>
    rw [if_pos rfl]
    simp only
    generalize showPart tw th yes m fails' (0 + 1) ts (q + 1 + 1) = r
    obtain ⟨es, o, q'⟩ := r
    cases o <;> exact ⟨_, rfl⟩

theorem C117_violated : ¬ C117_statement := by
  intro h
  obtain ⟨h1, _⟩ := h 80 24 (fun _ => false) [("train", .data [[("x", .plain)]] false), ("val", .data [[("x", .plain)]] false)] 0 (by
    intro p hp n c e
    simp only [List.mem_cons, List.not_mem_nil, or_false] at hp
    rcases hp with rfl | rfl <;> cases e <;> exact .inr ⟨_, rfl, by decide +kernel⟩)
  have := h1 [.sample "train" 0] [.sample "val" 0, .exiting] (by decide +kernel)
  revert this
  decide +kernel

/-! ### Which samples can be shown -/

mutual
/-- The value has no named tuple (with elements) and no picture without contrast at a place that is looked into -/
inductive Fine (tw th : Nat) : Nat → V → Prop where
  | tensor {indent : Nat} {shape : List Nat} {flat : Int → Int → Bool} :
      (∀ h w, shape = [h, w] ∨ (∃ c, (c = 1 ∨ c = 3 ∨ c = 4) ∧ shape = [c, h, w]) → 0 < h ∧ 0 < w ∧ flat (fit tw th indent h w).1 (fit tw th indent h w).2 = false) → Fine tw th indent (.tensor shape flat)
  | plain {indent : Nat} : Fine tw th indent .plain
  | bytes {indent : Nat} : Fine tw th indent .bytes
  | other {indent : Nat} : Fine tw th indent .other
  | unnamed {indent : Nat} : Fine tw th indent (.named [])
  | seq {indent : Nat} {l : List V} : FineAll tw th (indent + 4) l → Fine tw th indent (.seq l)
inductive FineAll (tw th : Nat) : Nat → List V → Prop where
  | nil {indent : Nat} : FineAll tw th indent []
  | cons {indent : Nat} {v : V} {l : List V} : Fine tw th indent v → FineAll tw th indent l → FineAll tw th indent (v :: l)
end

mutual
/-- How deep the value is nested in lists -/
def depth : V → Nat
  | .seq l => depths l + 1
  | _ => 0
def depths : List V → Nat
  | [] => 0
  | v :: l => max (depth v) (depths l)
end

theorem trunc_pos {a b : Int} (hb : 0 < b) (h : b ≤ a) : 0 < trunc a b := by
  unfold trunc
  rw [Int.tdiv_eq_ediv_of_nonneg (by omega)]
  have := (Int.le_ediv_iff_mul_le hb (a := 1) (b := a)).2 (by omega)
  omega

/-- The size of a picture is positive: in a terminal with at least four lines, as long as there is room for one column behind the indentation. -/
theorem fit_pos {indent h w : Nat} (hh : 0 < h) (hw : 0 < w) (ht : 4 ≤ th) (hi : indent < tw) : 0 < (fit tw th indent h w).1 ∧ 0 < (fit tw th indent h w).2 := by
  unfold fit
  obtain ⟨d, rfl⟩ : ∃ d, tw = indent + 1 + d := ⟨tw - indent - 1, by omega⟩
  have hd : ((indent + 1 + d : Nat) : Int) - (indent : Int) = (d : Int) + 1 := by push_cast; ring
  have hh' : (1 : Int) ≤ h := by omega
  have hw' : (1 : Int) ≤ w := by omega
  have ht' : (4 : Int) ≤ th := by omega
  simp only [hd]
  split
  · next hlt =>
    show 0 < trunc (((d : Int) + 1) * 3 * h) (10 * w) ∧ 0 < (d : Int) + 1
    refine ⟨trunc_pos (b := 10 * (w : Int)) (by omega) ?_, by omega⟩
    have h1 : (w : Int) * 4 ≤ w * th := by nlinarith
    nlinarith
  · next hge =>
    show 0 < (th : Int) ∧ 0 < trunc ((th : Int) * 10 * w) (3 * h)
    refine ⟨by omega, trunc_pos (b := 3 * (h : Int)) (by omega) ?_⟩
    have h1 : ((d : Int) + 1) * h ≤ w * th := by omega
    nlinarith [mul_nonneg (Int.natCast_nonneg d) (Int.natCast_nonneg h)]

theorem picture_iff {shape : List Nat} {h w : Nat} : picture shape = some (h, w) ↔ shape = [h, w] ∨ ∃ c, (c = 1 ∨ c = 3 ∨ c = 4) ∧ shape = [c, h, w] := by
  unfold picture
  split
  · next a b => simp
  · next c a b =>
    by_cases hc : c = 1 ∨ c = 3 ∨ c = 4
    · rw [if_pos hc]
      constructor
      · intro e; cases e; exact .inr ⟨c, hc, rfl⟩
      · rintro (e | ⟨c', _, e⟩)
        · cases e
        · cases e; rfl
    · rw [if_neg hc]
      constructor
      · intro e; cases e
      · rintro (e | ⟨c', h1, e⟩)
        · cases e
        · cases e; exact absurd h1 hc
  · next h1 h2 =>
    constructor
    · intro e; cases e
    · rintro (e | ⟨c', _, e⟩)
      · exact absurd e (h1 _ _)
      · exact absurd e (h2 _ _ _)

mutual
theorem toStr_iff (ht : 4 ≤ th) : (v : V) → (indent : Nat) → indent + 4 * depth v < tw → (toStr tw th indent v = true ↔ Fine tw th indent v)
  | .tensor shape flat, indent, hd => by
    have hi : indent < tw := by omega
    rw [toStr]
    constructor
    · intro h
      refine .tensor fun h' w' hs => ?_
      rw [picture_iff.2 hs] at h
      simp only [pictureShows, Bool.and_eq_true, decide_eq_true_eq, Bool.not_eq_true'] at h
      exact ⟨h.1.1.1.1, h.1.1.1.2, h.2⟩
    · intro h
      cases h with
      | tensor h =>
        cases hp : picture shape with
        | none => rfl
        | some p =>
          obtain ⟨h', w'⟩ := p
          obtain ⟨h1, h2, h3⟩ := h h' w' (picture_iff.1 hp)
          have := fit_pos (indent := indent) h1 h2 ht hi
          simp only [pictureShows, Bool.and_eq_true, decide_eq_true_eq, Bool.not_eq_true']
          exact ⟨⟨⟨⟨h1, h2⟩, this.1⟩, this.2⟩, h3⟩
  | .plain, _, _ => by rw [toStr]; exact ⟨fun _ => .plain, fun _ => rfl⟩
  | .bytes, _, _ => by rw [toStr]; exact ⟨fun _ => .bytes, fun _ => rfl⟩
  | .other, _, _ => by rw [toStr]; exact ⟨fun _ => .other, fun _ => rfl⟩
  | .named l, _, _ => by
    rw [toStr]
    constructor
    · intro h
      cases l with
      | nil => exact .unnamed
      | cons _ _ => cases h
    · intro h
      cases h with
      | unnamed => rfl
  | .seq l, indent, hd => by
    rw [toStr, allStr_iff ht l (indent + 4) (by rw [depth] at hd; omega)]
    constructor
    · exact .seq
    · intro h
      cases h with
      | seq h => exact h
theorem allStr_iff (ht : 4 ≤ th) : (l : List V) → (indent : Nat) → indent + 4 * depths l < tw → (allStr tw th indent l = true ↔ FineAll tw th indent l)
  | [], _, _ => by rw [allStr]; exact ⟨fun _ => .nil, fun _ => rfl⟩
  | v :: l, indent, hd => by
    rw [depths] at hd
    rw [allStr, Bool.and_eq_true, toStr_iff ht v indent (by omega), allStr_iff ht l indent (by omega)]
    constructor
    · rintro ⟨h1, h2⟩; exact .cons h1 h2
    · intro h
      cases h with
      | cons h1 h2 => exact ⟨h1, h2⟩
end

/-- **C117, which values can be shown**: in a terminal with at least four lines and room for the indentation, exactly the values without named tuples and without pictures that have no pixels or only one gray value. -/
theorem C117_shows (ht : 4 ≤ th) (v : V) (hd : 4 * depth v < tw) : toStr tw th 0 v = true ↔ Fine tw th 0 v := toStr_iff ht v 0 (by omega)

/-- **C117 is false of the code**: named tuples and pictures of one color cannot be shown, the preview ends with an error. -/
theorem C117_violated_values (v : V) (l : List V) (h w : Nat) (n : String) (fails : Bool) (ss : List Sample) (ps : List (String × Part)) (q : Nat) :
    preview tw th yes ((n, .data ([("x", .named (v :: l))] :: ss) fails) :: ps) q = ([], .failed) ∧
    preview tw th yes ((n, .data ([("image", .tensor [3, h, w] fun _ _ => true)] :: ss) fails) :: ps) q = ([], .failed) := by
  constructor
  · unfold preview
    rw [showPart, if_neg]
    simp [shows, toStr]
  · unfold preview
    rw [showPart, if_neg]
    simp [shows, toStr, picture, pictureShows]

/-! ### Pictures -/

/-- The picture fits the terminal -/
def Fits (tw th indent h w : Nat) : Prop := (fit tw th indent h w).1 ≤ th ∧ (fit tw th indent h w).2 ≤ (tw : Int) - indent

/-- **C117 is false of the code** for pictures that are wider than the terminal (in proportion): they never fit; the width shown is more than three times the room. -/
theorem C117_violated_wide {indent h w : Nat} (hh : 0 < h) (hi : indent < tw) (hwide : (tw - indent) * h ≤ w * th) :
    3 * ((tw : Int) - indent) ≤ (fit tw th indent h w).2 ∧ ¬ Fits tw th indent h w := by
  have key : 3 * ((tw : Int) - indent) ≤ (fit tw th indent h w).2 := by
    unfold fit
    have hw' : ((tw : Int) - indent) * h ≤ w * th := by
      have : (((tw - indent) * h : Nat) : Int) ≤ ((w * th : Nat) : Int) := Int.ofNat_le.2 hwide
      push_cast [Nat.cast_sub (Nat.le_of_lt hi)] at this
      exact this
    rw [if_neg (by push Not; exact hw')]
    simp only
    have hh' : (1 : Int) ≤ h := by omega
    have hd : (1 : Int) ≤ (tw : Int) - indent := by omega
    have h0 : 0 ≤ (th : Int) * 10 * w := mul_nonneg (mul_nonneg (Int.natCast_nonneg _) (by decide)) (Int.natCast_nonneg _)
    unfold trunc
    rw [Int.tdiv_eq_ediv_of_nonneg h0, Int.le_ediv_iff_mul_le (by omega)]
    nlinarith
  refine ⟨key, fun hf => ?_⟩
  have := hf.2
  omega

/-- Pictures that are not wider than the terminal (in proportion) fit exactly if `0.3 * columns * h / w < th + 1`. -/
theorem C117_fits {indent h w : Nat} (hw : 0 < w) (hi : indent < tw) (hn : w * th < (tw - indent) * h) :
    Fits tw th indent h w ↔ 3 * (tw - indent) * h < 10 * w * (th + 1) := by
  unfold Fits fit
  have hn' : (w : Int) * th < ((tw : Int) - indent) * h := by
    have : ((w * th : Nat) : Int) < (((tw - indent) * h : Nat) : Int) := Int.ofNat_lt.2 hn
    push_cast [Nat.cast_sub (Nat.le_of_lt hi)] at this
    exact this
  rw [if_pos hn']
  simp only
  have hw' : (1 : Int) ≤ w := by omega
  have hd : (0 : Int) ≤ (tw : Int) - indent := by omega
  have h0 : 0 ≤ ((tw : Int) - indent) * 3 * h := mul_nonneg (mul_nonneg hd (by decide)) (Int.natCast_nonneg _)
  unfold trunc
  rw [Int.tdiv_eq_ediv_of_nonneg h0]
  have e : ((tw : Int) - indent) * 3 * h / (10 * w) ≤ th ↔ ((tw : Int) - indent) * 3 * h < (th + 1) * (10 * w) := by
    rw [← Int.ediv_lt_iff_lt_mul (by omega)]
    omega
  rw [e]
  have e2 : 3 * (tw - indent) * h < 10 * w * (th + 1) ↔ ((tw : Int) - indent) * 3 * h < (th + 1) * (10 * w) := by
    rw [← Int.ofNat_lt]
    push_cast [Nat.cast_sub (Nat.le_of_lt hi)]
    constructor <;> intro h <;> nlinarith
  rw [e2]
  exact ⟨fun h => h.1, fun h => ⟨h, le_refl _⟩⟩

/-- **C117 is false of the code** for high pictures in a usual terminal: they are shown with more lines than there are. -/
theorem C117_violated_high {h w : Nat} (hw : 0 < w) (hhigh : 25 * w ≤ 24 * h) : ¬ Fits 80 24 0 h w := by
  rw [C117_fits hw (by decide) (by omega)]
  omega

/-! ### Cases -/

example : Fits 80 24 0 300 400 := (C117_fits (by decide) (by decide) (by decide)).2 (by decide)
example : ¬ Fits 80 24 0 100 600 := (C117_violated_wide (by decide) (by decide) (by decide)).2
example : ¬ Fits 80 24 0 600 400 := C117_violated_high (by decide) (by decide)
example : toStr 80 24 0 (.seq [.plain, .tensor [3, 10, 20] fun _ _ => false, .bytes]) = true := by
  rw [C117_shows (by decide) _ (by decide +kernel)]
  refine .seq (.cons .plain (.cons (.tensor ?_) (.cons .bytes .nil)))
  rintro h w (e | ⟨c, _, e⟩)
  · cases e
  · cases e; exact ⟨by decide, by decide, rfl⟩
example : preview 80 24 (fun q => q = 0) [("train", .data [[("x", .plain)], [("x", .bytes)], [("x", .other)]] false)] 0 = ([.sample "train" 0, .sample "train" 1, .exiting], .done) := by decide +kernel
example := C117_all (tw := 80) (th := 24) (yes := fun _ => true) [("train", .data [[("x", .plain)]] false), ("val", .empty)] (by
    intro p hp n c e
    simp only [List.mem_cons, List.not_mem_nil, or_false] at hp
    rcases hp with rfl | rfl <;> cases e
    · exact .inr ⟨_, rfl, by decide +kernel⟩
    · exact .inl rfl) (fun _ => rfl) 0

end Verif.Preview
