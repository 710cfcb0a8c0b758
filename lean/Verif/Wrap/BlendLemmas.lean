import Verif.Wrap.BlendModel
import Verif.Stream.Multi

/-! # Lemmas about Blend and Concat -/

namespace Verif.Stream

variable {σ κ C ρ : Type} {D : Nat → Dataset σ (Smp C) κ} {n : Nat} {R : Rng ρ}

theorem blendActive_nodup : (blendActive D n).Nodup := List.nodup_range.sublist List.filter_sublist

theorem mem_blendActive {i : Nat} : i ∈ blendActive D n ↔ i < n ∧ (D i).hasSamples = true := by
  simp [blendActive]

theorem blend_noReset : (blendW D n R).NoReset := by
  rintro ⟨g, c⟩ x' h
  cases c <;> simp only [blendW] at h <;> first | cases h | (split at h <;> cases h)

theorem Rng.choiceIdx_lt (R : Rng ρ) (g : ρ) {m : Nat} (h : 0 < m) : (R.choiceIdx g m).1 < m := by
  simp only [Rng.choiceIdx]
  split
  · exact h
  · exact R.choice_lt g m h

/-- The first `j` draws from `m` parts, starting from generator state `g`. -/
def drawSeq (R : Rng ρ) (m : Nat) : Nat → ρ → List Nat × ρ
  | 0, g => ([], g)
  | j + 1, g =>
    let r := drawSeq R m j (R.choiceIdx g m).2
    ((R.choiceIdx g m).1 :: r.1, r.2)

theorem drawSeq_length (R : Rng ρ) (m j : Nat) (g : ρ) : (drawSeq R m j g).1.length = j := by
  induction j generalizing g with
  | zero => rfl
  | succ j ih => simp [drawSeq, ih]

/-- A sample taken but not yet delivered. -/
def BlendCtl.pend : BlendCtl C → List (Nat × Smp C)
  | .got a k => [(k, a)]
  | _ => []

/-- A choice made but not yet delivered. -/
def BlendCtl.pendK : BlendCtl C → List Nat
  | .pulling k => [k]
  | .got _ k => [k]
  | _ => []

@[simp] theorem pend_start : (BlendCtl.start : BlendCtl C).pend = [] := rfl
@[simp] theorem pend_draw : (BlendCtl.draw : BlendCtl C).pend = [] := rfl
@[simp] theorem pend_pulling (k : Nat) : (BlendCtl.pulling k : BlendCtl C).pend = [] := rfl
@[simp] theorem pend_got (a : Smp C) (k : Nat) : (BlendCtl.got a k).pend = [(k, a)] := rfl
@[simp] theorem pendK_start : (BlendCtl.start : BlendCtl C).pendK = [] := rfl
@[simp] theorem pendK_draw : (BlendCtl.draw : BlendCtl C).pendK = [] := rfl
@[simp] theorem pendK_pulling (k : Nat) : (BlendCtl.pulling k : BlendCtl C).pendK = [k] := rfl
@[simp] theorem pendK_got (a : Smp C) (k : Nat) : (BlendCtl.got a k).pendK = [k] := rfl

/-- The sample as delivered by the blend. -/
def blendTag (z : Nat × Smp C) : Smp C := z.2.addKey [.str "BlendDataset", .num z.1]

open Dataset in
theorem blend_trans_inv {x x' : BlendX ρ C} {es : List (Nat × Ev (Smp C))} {os : List (Ev (Smp C))}
    (h : (blendW D n R).MTrans x es os x') :
    ∃ zs : List (Nat × Smp C), os = (zs.map blendTag).map .item ∧
      (∀ k i, (blendActive D n)[k]? = some i →
        (x.ctl.pend.filter (·.1 = k)).map (·.2) ++ itemsOf (evsOf i es) =
          ((zs ++ x'.ctl.pend).filter (·.1 = k)).map (·.2)) ∧
      (∀ i, i ∉ blendActive D n → evsOf i es = []) ∧
      ∃ j, x.ctl.pendK ++ (drawSeq R (blendActive D n).length j x.rng).1 = zs.map (·.1) ++ x'.ctl.pendK ∧
        (drawSeq R (blendActive D n).length j x.rng).2 = x'.rng := by
  induction h with
  | @nil x =>
    refine ⟨[], rfl, fun k i _ => ?_, fun i _ => rfl, 0, ?_, rfl⟩
    · simp [evsOf, itemsOf]
    · simp [drawSeq]
  | @emit x b x1 es os x2 h hT ih =>
    obtain ⟨g, c⟩ := x
    cases c <;> simp only [blendW] at h <;> try (first | cases h | (split at h <;> cases h))
    next a k =>
    obtain ⟨zs, h1, h2, h3, j, h4, h5⟩ := ih
    refine ⟨(k, a) :: zs, by rw [h1]; rfl, fun k' i hk => ?_, h3, j, ?_, h5⟩
    · have := h2 k' i hk
      simp only [pend_draw, pend_got, List.filter_nil, List.map_nil, List.nil_append, List.cons_append] at this ⊢
      by_cases hkk : k = k'
      · subst hkk; simp [this]
      · simp [hkk, this]
    · simp only [pendK_draw, pendK_got, List.nil_append, List.map_cons, List.cons_append] at h4 ⊢
      rw [← h4]
  | @halt x x1 es os x2 h hT ih =>
    obtain ⟨g, c⟩ := x
    cases c <;> simp only [blendW] at h <;> first | cases h | (split at h <;> cases h)
  | @tau x x1 es os x2 h hT ih =>
    obtain ⟨g, c⟩ := x
    cases c <;> simp only [blendW] at h <;> try (first | cases h | (split at h <;> cases h))
    · exact ih
    · obtain ⟨zs, h1, h2, h3, j, h4, h5⟩ := ih
      exact ⟨zs, h1, h2, h3, j + 1, by simpa [drawSeq] using h4, h5⟩
  | @pullItem x i f g a es os x2 h hT ih =>
    obtain ⟨g, c⟩ := x
    cases c <;> simp only [blendW] at h <;> try (first | cases h | (split at h <;> cases h))
    next k _ hk0 =>
    obtain ⟨zs, h1, h2, h3, j, h4, h5⟩ := ih
    refine ⟨zs, h1, fun k' i' hk => ?_, fun i' hi' => ?_, j, h4, h5⟩
    · rw [← h2 k' i' hk]
      by_cases hkk : k = k'
      · subst hkk
        rw [hk0] at hk
        cases hk
        rw [evsOf_cons_same]
        simp [itemsOf]
      · have hii : i ≠ i' := by
          intro e
          subst e
          have := (List.getElem?_inj (List.getElem?_eq_some_iff.1 hk0).1 blendActive_nodup).1 (hk0.trans hk.symm)
          exact hkk this
        rw [evsOf_cons_other hii]
        simp [hkk]
    · have hii : i ≠ i' := by
        rintro rfl
        exact hi' (List.mem_of_getElem? hk0)
      rw [evsOf_cons_other hii]
      exact h3 i' hi'
  | @pullFin x i f g es os x2 h hT ih =>
    obtain ⟨g, c⟩ := x
    cases c <;> simp only [blendW] at h <;> try (first | cases h | (split at h <;> cases h))
    next k hk0 =>
    obtain ⟨zs, h1, h2, h3, j, h4, h5⟩ := ih
    refine ⟨zs, h1, fun k' i' hk => ?_, fun i' hi' => ?_, j, h4, h5⟩
    · rw [← h2 k' i' hk]
      by_cases hii : i = i'
      · subst hii; rw [evsOf_cons_same]; rfl
      · rw [evsOf_cons_other hii]
    · have hii : i ≠ i' := by
        rintro rfl
        exact hi' (List.mem_of_getElem? hk0)
      rw [evsOf_cons_other hii]
      exact h3 i' hi'

theorem blend_inv (r : Bool) :
    WInv (Source.multi D) (blendW D n R) (fun S => ∀ j, (D j).Paused r (S j))
      (fun x => match x.ctl with
        | .start => True
        | .draw => 0 < (blendActive D n).length
        | .pulling k => k < (blendActive D n).length
        | .got a k => ∃ i, (blendActive D n)[k]? = some i ∧ (D i).Yields r a)
      (fun x => x.ctl = .start ∨ (x.ctl = .draw ∧ 0 < (blendActive D n).length)) := by
  refine WInv.mkMulti blend_noReset ?_ ?_ ?_ ?_ ?_ ?_
  · rintro ⟨g, c⟩ (h | h)
    · simp only at h; subst h; trivial
    · obtain ⟨h, h'⟩ := h; simp only at h; subst h; exact h'
  · rintro ⟨g, c⟩ b x' hx h
    cases c <;> simp only [blendW] at h <;> try (first | cases h | (split at h <;> cases h))
    obtain ⟨i, h1, _⟩ := hx
    exact .inr ⟨rfl, Nat.lt_of_le_of_lt (Nat.zero_le _) (List.getElem?_eq_some_iff.1 h1).1⟩
  · rintro ⟨g, c⟩ x' hx h
    cases c <;> simp only [blendW] at h <;> first | cases h | (split at h <;> cases h)
  · rintro ⟨g, c⟩ x' hx h
    cases c <;> simp only [blendW] at h <;> try (first | cases h | (split at h <;> cases h))
    · next hh => exact List.length_pos_iff.2 (by simpa using hh)
    · exact R.choiceIdx_lt g hx
  · rintro ⟨g, c⟩ i f e hx h a ha
    cases c <;> simp only [blendW] at h <;> try (first | cases h | (split at h <;> cases h))
    next hk => exact ⟨_, hk, ha⟩
  · rintro ⟨g, c⟩ i f e hx h
    cases c <;> simp only [blendW] at h <;> try (first | cases h | (split at h <;> cases h))
    exact hx

theorem blend_paused {r : Bool} {p : (Nat → σ) × BlendX ρ C} (h : (wrapMulti D (blendW D n R)).Paused r p) :
    (∀ j, (D j).Paused r (p.1 j)) ∧ (p.2.ctl = .start ∨ (p.2.ctl = .draw ∧ 0 < (blendActive D n).length)) :=
  wrapMulti_paused (blend_inv r) (.inl rfl) (fun _ _ => .inl rfl) (fun _ _ _ => .inl rfl) h

/-! ### Concat -/

theorem concat_noReset : (concatW D n).NoReset := by
  rintro c x' h
  cases c <;> simp only [concatW] at h <;> first | cases h | (split at h <;> cases h)

theorem concat_inv (r : Bool) :
    WInv (Source.multi D) (concatW D n) (fun S => ∀ j, (D j).Paused r (S j))
      (fun x => match x with
        | .part i => i ≤ n
        | .got a i => i < n ∧ (D i).Yields r a)
      (fun x => ∃ i, i ≤ n ∧ x = .part i) := by
  refine WInv.mkMulti concat_noReset ?_ ?_ ?_ ?_ ?_ ?_
  · rintro x ⟨i, hi, rfl⟩; exact hi
  · rintro c b x' hx h
    cases c <;> simp only [concatW] at h <;> try (first | cases h | (split at h <;> cases h))
    exact ⟨_, Nat.le_of_lt hx.1, rfl⟩
  · rintro c x' hx h
    cases c <;> simp only [concatW] at h <;> try (first | cases h | (split at h <;> cases h))
    exact ⟨0, Nat.zero_le _, rfl⟩
  · rintro c x' hx h
    cases c <;> simp only [concatW] at h <;> first | cases h | (split at h <;> cases h)
  · rintro c i f e hx h a ha
    cases c <;> simp only [concatW] at h <;> try (first | cases h | (split at h <;> cases h))
    next hi => exact ⟨hi, ha⟩
  · rintro c i f e hx h
    cases c <;> simp only [concatW] at h <;> try (first | cases h | (split at h <;> cases h))
    next hi => exact hi

theorem concat_paused {r : Bool} {p : (Nat → σ) × ConcatX C} (h : (wrapMulti D (concatW D n)).Paused r p) :
    (∀ j, (D j).Paused r (p.1 j)) ∧ ∃ i, i ≤ n ∧ p.2 = .part i :=
  wrapMulti_paused (concat_inv r) ⟨0, Nat.zero_le _, rfl⟩ (fun _ _ => ⟨0, Nat.zero_le _, rfl⟩)
    (fun _ _ _ => ⟨0, Nat.zero_le _, rfl⟩) h

/-- The sample as delivered by the concatenation. -/
def concatTag (i : Nat) (a : Smp C) : Smp C := a.addKey [.str "ConcatDataset", .num i]

theorem concat_part_trans (i : Nat) (hi : i < n) (xs : List (Smp C)) :
    (concatW D n).MTrans (.part i) ((passEvs xs).map (fun e => (i, e))) ((xs.map (concatTag i)).map .item)
      (.part (i + 1)) := by
  induction xs with
  | nil =>
    refine .pullFin (W := concatW D n) (x := .part i) (f := fun a => .got a i) ?_ .nil
    simp only [concatW, hi, if_true]
  | cons a xs ih =>
    refine .pullItem (W := concatW D n) (x := .part i) (f := fun a => .got a i) (g := .part (i + 1)) ?_
      (.emit (W := concatW D n) (x := .got a i) rfl ih)
    simp only [concatW, hi, if_true]

theorem concat_parts_trans (xss : Nat → List (Smp C)) (j i : Nat) (h : i + j = n) :
    (concatW D n).MTrans (.part i)
      ((List.range' i j).flatMap fun k => (passEvs (xss k)).map (fun e => (k, e)))
      (((List.range' i j).flatMap fun k => (xss k).map (concatTag k)).map .item) (.part n) := by
  induction j generalizing i with
  | zero => simp only [Nat.add_zero] at h; subst h; exact .nil
  | succ j ih =>
    rw [List.range'_succ, List.flatMap_cons, List.flatMap_cons, List.map_append]
    exact (concat_part_trans i (by omega) (xss i)).append (ih (i + 1) (by omega))

theorem evsOf_map_same (i : Nat) (es : List (Ev (Smp C))) : evsOf i (es.map fun e => (i, e)) = es := by
  induction es with
  | nil => rfl
  | cons e es ih => rw [List.map_cons, evsOf_cons_same, ih]

theorem evsOf_map_other {i k : Nat} (h : k ≠ i) (es : List (Ev (Smp C))) : evsOf i (es.map fun e => (k, e)) = [] := by
  induction es with
  | nil => rfl
  | cons e es ih => rw [List.map_cons, evsOf_cons_other h, ih]

theorem evsOf_flatMap (i : Nat) (l : List Nat) (hl : l.Nodup) (f : Nat → List (Ev (Smp C))) :
    evsOf i (l.flatMap fun k => (f k).map (fun e => (k, e))) = if i ∈ l then f i else [] := by
  induction l with
  | nil => rfl
  | cons k l ih =>
    rw [List.flatMap_cons, evsOf_append, ih (List.nodup_cons.1 hl).2]
    by_cases hk : k = i
    · subst hk
      rw [evsOf_map_same]
      simp [(List.nodup_cons.1 hl).1]
    · rw [evsOf_map_other hk]
      simp [Ne.symm hk]

end Verif.Stream
