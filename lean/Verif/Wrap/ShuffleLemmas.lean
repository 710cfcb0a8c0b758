import Verif.Wrap.ShuffleModel
import Verif.Stream.Lemmas
import Mathlib.Data.List.Perm.Basic

/-! # Lemmas about the shuffle buffer -/

namespace Verif.Stream

variable {σ κ C ρ : Type} {D : Dataset σ (Smp C) κ} {R : Rng ρ} {size : Nat}

theorem shufPop_cases (R : Rng ρ) (x : ShufX ρ C) (h : 0 < x.buf.length) :
    ∃ i g, ∃ hi : i < x.buf.length,
      shufPop R x = .emit x.buf[i] { x with buf := x.buf.eraseIdx i, rng := g } := by
  refine ⟨(R.below x.rng x.buf.length).1, (R.below x.rng x.buf.length).2, R.below_lt _ _ h, ?_⟩
  simp [shufPop, List.getElem?_eq_getElem (R.below_lt x.rng _ h)]

theorem shufPop_emit {x x' : ShufX ρ C} {b : Smp C} (h : shufPop R x = .emit b x') :
    ∃ i g, ∃ hi : i < x.buf.length, b = x.buf[i] ∧ x' = { x with buf := x.buf.eraseIdx i, rng := g } := by
  simp only [shufPop] at h
  split at h
  · next a ha =>
    cases h
    obtain ⟨hi, hb⟩ := List.getElem?_eq_some_iff.1 ha
    exact ⟨_, _, hi, hb.symm, rfl⟩
  · cases h

theorem shufPop_only {x : ShufX ρ C} {a : Act Unit (Smp C) (Smp C) (ShufX ρ C)} (h : shufPop R x = a) :
    (∃ b x', a = .emit b x') ∨ a = .raise := by
  subst h
  simp only [shufPop]
  split
  · exact .inl ⟨_, _, rfl⟩
  · exact .inr rfl

/-- The possible actions. -/
theorem shuffle_act_cases (x : ShufX ρ C) :
    (∃ i g, ∃ hi : i < x.buf.length, x.ctl ≠ .dead ∧ (x.ctl = .fill → size ≤ x.buf.length) ∧
      (shuffleW D R size).act x = .emit x.buf[i] { x with buf := x.buf.eraseIdx i, rng := g }) ∨
    (x.ctl = .fill ∧ x.buf.length < size ∧ (shuffleW D R size).act x =
      .pull () (fun a => { x with buf := x.buf ++ [a] }) { x with ctl := .drain }) ∨
    (x.ctl = .drain ∧ x.buf = [] ∧ (shuffleW D R size).act x = .halt { x with ctl := .fill }) ∨
    ((x.ctl = .dead ∨ x.ctl = .fill ∧ size = 0 ∧ x.buf = []) ∧ (shuffleW D R size).act x = .raise) := by
  obtain ⟨buf, g, c⟩ := x
  cases c with
  | fill =>
    by_cases h : size ≤ buf.length
    · by_cases h0 : buf = []
      · right; right; right
        subst h0
        refine ⟨.inr ⟨rfl, by simpa using h, rfl⟩, ?_⟩
        simp only [shuffleW, h, if_true, shufPop]
        simp
      · left
        have hl : 0 < buf.length := by cases buf with
          | nil => exact absurd rfl h0
          | cons => simp
        obtain ⟨i, g', hi, he⟩ := shufPop_cases R ⟨buf, g, .fill⟩ hl
        exact ⟨i, g', hi, by simp, fun _ => h, by simp only [shuffleW, h, if_true]; exact he⟩
    · right; left
      exact ⟨rfl, by simpa using h, by simp only [shuffleW, h, if_false]⟩
  | drain =>
    by_cases h0 : buf = []
    · right; right; left
      subst h0
      exact ⟨rfl, rfl, by simp [shuffleW]⟩
    · left
      have hl : 0 < buf.length := by cases buf with
        | nil => exact absurd rfl h0
        | cons => simp
      obtain ⟨i, g', hi, he⟩ := shufPop_cases R ⟨buf, g, .drain⟩ hl
      exact ⟨i, g', hi, by simp, by simp, by simp only [shuffleW, hl, if_true]; exact he⟩
  | dead => right; right; right; exact ⟨.inl rfl, rfl⟩

theorem shuffle_noReset : (shuffleW D R size).NoReset := by
  intro x x' h
  rcases shuffle_act_cases (D := D) (R := R) (size := size) x with ⟨i, g, hi, _, _, he⟩ | ⟨_, _, he⟩ | ⟨_, _, he⟩ | ⟨_, he⟩ <;>
    rw [h] at he <;> cases he

/-- The transducer: what comes out plus what is buffered is what was buffered plus what went in. -/
theorem shuffle_trans_inv {x x' : ShufX ρ C} {es : List (Ev (Smp C))} {os : List (Ev (Smp C))}
    (h : (shuffleW D R size).Trans x es os x') (ys : List (Smp C)) (ho : os = ys.map .item) :
    match x.ctl with
    | .fill => ∃ xs, (es = xs.map .item ∧ x'.ctl = .fill ∨ es = passEvs xs ∧ x'.ctl = .drain) ∧
        (ys ++ x'.buf).Perm (x.buf ++ xs)
    | .drain => es = [] ∧ x'.ctl = .drain ∧ (ys ++ x'.buf).Perm x.buf
    | .dead => es = [] ∧ ys = [] ∧ x' = x := by
  induction h generalizing ys with
  | @nil x =>
    cases ys with
    | cons => cases ho
    | nil =>
      obtain ⟨buf, g, c⟩ := x
      cases c with
      | fill => exact ⟨[], .inl ⟨rfl, rfl⟩, by simp⟩
      | drain => exact ⟨rfl, rfl, by simp⟩
      | dead => exact ⟨rfl, rfl, rfl⟩
  | @emit x b x1 es os x2 h _ ih =>
    cases ys with
    | nil => cases ho
    | cons y ys =>
      simp only [List.map_cons, List.cons.injEq, Ev.item.injEq] at ho
      obtain ⟨rfl, ho⟩ := ho
      have ih := ih ys ho
      rcases shuffle_act_cases (D := D) (R := R) (size := size) x with ⟨i, g, hi, hc, _, he⟩ | ⟨_, _, he⟩ | ⟨_, _, he⟩ | ⟨_, he⟩ <;>
        rw [h] at he <;> cases he
      have hp : (x.buf[i] :: x.buf.eraseIdx i).Perm x.buf := List.getElem_cons_eraseIdx_perm hi
      obtain ⟨buf, g0, c⟩ := x
      cases c with
      | fill =>
        obtain ⟨xs, h1, h2⟩ := ih
        exact ⟨xs, h1, (List.Perm.cons _ h2).trans (hp.append_right xs)⟩
      | drain =>
        obtain ⟨h1, h2, h3⟩ := ih
        exact ⟨h1, h2, (List.Perm.cons _ h3).trans hp⟩
      | dead => exact absurd rfl hc
  | halt h => cases ys <;> cases ho
  | @tau x x1 es os x2 h _ ih =>
    rcases shuffle_act_cases (D := D) (R := R) (size := size) x with ⟨i, g, hi, hc, _, he⟩ | ⟨_, _, he⟩ | ⟨_, _, he⟩ | ⟨_, he⟩ <;>
      rw [h] at he <;> cases he
  | @pullItem x f g a es os x2 h _ ih =>
    rcases shuffle_act_cases (D := D) (R := R) (size := size) x with ⟨i, g, hi, hc, _, he⟩ | ⟨hc, _, he⟩ | ⟨_, _, he⟩ | ⟨_, he⟩ <;>
      rw [h] at he <;> cases he
    have ih := ih ys ho
    obtain ⟨buf, g0, c⟩ := x
    simp only at hc
    subst hc
    obtain ⟨xs, h1, h2⟩ := ih
    refine ⟨a :: xs, ?_, by simpa using h2⟩
    rcases h1 with ⟨rfl, h1⟩ | ⟨rfl, h1⟩
    · exact .inl ⟨rfl, h1⟩
    · exact .inr ⟨rfl, h1⟩
  | @pullFin x f g es os x2 h _ ih =>
    rcases shuffle_act_cases (D := D) (R := R) (size := size) x with ⟨i, g, hi, hc, _, he⟩ | ⟨hc, _, he⟩ | ⟨_, _, he⟩ | ⟨_, he⟩ <;>
      rw [h] at he <;> cases he
    have ih := ih ys ho
    obtain ⟨buf, g0, c⟩ := x
    simp only at hc
    subst hc
    obtain ⟨rfl, h1, h2⟩ := ih
    exact ⟨[], .inr ⟨rfl, h1⟩, by simpa using h2⟩

/-- Invariant: buffered samples can be restored; the buffer is not larger than configured. -/
theorem shuffle_inv {r : Bool} (hD : D.RestoresSamples r) (hs : 0 < size) :
    WInv (Source.single D) (shuffleW D R size) (D.Paused r)
      (fun x => (∀ a ∈ x.buf, D.restoreSample a.key = some a) ∧ x.buf.length ≤ size ∧
        (x.ctl = .drain → x.buf.length < size ∧ ¬ D.NeverEnds r) ∧ x.ctl ≠ .dead)
      (fun x => (∀ a ∈ x.buf, D.restoreSample a.key = some a) ∧ x.buf.length < size ∧
        (x.ctl = .drain → ¬ D.NeverEnds r) ∧ x.ctl ≠ .dead) := by
  refine WInv.mk' shuffle_noReset ?_ ?_ ?_ ?_ ?_ ?_
  · rintro x ⟨h1, h2, h3, h4⟩
    exact ⟨h1, by omega, fun h => ⟨h2, h3 h⟩, h4⟩
  · rintro x b x' ⟨h1, h2, h3, h4⟩ h
    rcases shuffle_act_cases (D := D) (R := R) (size := size) x with ⟨i, g, hi, hc, _, he⟩ | ⟨hc, _, he⟩ | ⟨_, _, he⟩ | ⟨_, he⟩ <;>
      rw [h] at he <;> cases he
    refine ⟨fun a ha => h1 a (List.mem_of_mem_eraseIdx ha), ?_, fun hc => (h3 hc).2, h4⟩
    simp only [List.length_eraseIdx, hi, if_true]
    omega
  · rintro x x' ⟨h1, h2, h3, h4⟩ h
    rcases shuffle_act_cases (D := D) (R := R) (size := size) x with ⟨i, g, hi, hc, _, he⟩ | ⟨hc, _, he⟩ | ⟨_, h5, he⟩ | ⟨_, he⟩ <;>
      rw [h] at he <;> cases he
    exact ⟨h1, by simpa [h5] using hs, by simp, by simp⟩
  · rintro x x' ⟨h1, h2, h3, h4⟩ h
    rcases shuffle_act_cases (D := D) (R := R) (size := size) x with ⟨i, g, hi, hc, _, he⟩ | ⟨hc, _, he⟩ | ⟨_, h5, he⟩ | ⟨_, he⟩ <;>
      rw [h] at he <;> cases he
  · rintro x i f g ⟨h1, h2, h3, h4⟩ h a ⟨s, s', hp, ho⟩
    rcases shuffle_act_cases (D := D) (R := R) (size := size) x with ⟨i, g, hi, hc, _, he⟩ | ⟨hc, h5, he⟩ | ⟨_, h5, he⟩ | ⟨_, he⟩ <;>
      rw [h] at he <;> cases he
    refine ⟨?_, ?_, ?_, h4⟩
    · intro b hb
      rcases List.mem_append.1 hb with hb | hb
      · exact h1 b hb
      · rw [List.mem_singleton.1 hb]; exact hD s a s' hp ho
    · simp only [List.length_append, List.length_singleton]; omega
    · intro h; simp only [hc] at h; cases h
  · rintro x i f g ⟨h1, h2, h3, h4⟩ h hn
    rcases shuffle_act_cases (D := D) (R := R) (size := size) x with ⟨i, g, hi, hc, _, he⟩ | ⟨hc, h5, he⟩ | ⟨_, h5, he⟩ | ⟨_, he⟩ <;>
      rw [h] at he <;> cases he
    exact ⟨h1, h2, fun _ => ⟨h5, hn⟩, by simp⟩

theorem mapM_restore {D : Dataset σ (Smp C) κ} {l : List (Smp C)}
    (h : ∀ a ∈ l, D.restoreSample a.key = some a) : (l.map (·.key)).mapM D.restoreSample = some l := by
  induction l with
  | nil => rfl
  | cons a l ih =>
    simp only [List.mem_cons, forall_eq_or_imp] at h
    simp [List.mapM_cons, h.1, ih h.2]

theorem shuffle_paused (hD : D.RestoresSamples) (hs : 0 < size) {p : σ × ShufX ρ C}
    (h : (shuffleD D R size).Paused false p) : D.Paused false p.1 ∧
      ((∀ a ∈ p.2.buf, D.restoreSample a.key = some a) ∧ p.2.buf.length < size ∧
        (p.2.ctl = .drain → ¬ D.NeverEnds) ∧ p.2.ctl ≠ .dead) := by
  refine wrap_paused (W := shuffleW D R size) (shuffle_inv hD hs) ⟨?_, ?_, ?_, ?_⟩ ?_ (by simp) h
  · simp [shuffleW]
  · simpa [shuffleW] using hs
  · simp [shuffleW]
  · simp [shuffleW]
  · rintro x ⟨h1, h2, h3, h4⟩
    have : (shuffleW D R size).resume ((shuffleW D R size).save x) = ⟨x.buf, x.rng, .fill⟩ := by
      simp only [shuffleW, mapM_restore h1]
    rw [this]
    exact ⟨h1, h2, by simp, by simp⟩

theorem shuffle_fill_trans (xs : List (Smp C)) (buf : List (Smp C)) (g : ρ)
    (hb : buf.length < size) : ∃ (ys buf' : List (Smp C)) (g' : ρ), (shuffleW D R size).Trans ⟨buf, g, .fill⟩ (xs.map .item)
      (ys.map .item) ⟨buf', g', .fill⟩ ∧ buf'.length < size := by
  induction xs generalizing buf g with
  | nil => exact ⟨[], buf, g, .nil, hb⟩
  | cons a xs ih =>
    have hact : (shuffleW D R size).act ⟨buf, g, .fill⟩ = .pull () (fun a => ⟨buf ++ [a], g, .fill⟩)
        ⟨buf, g, .drain⟩ := by
      simp only [shuffleW, Nat.not_le.2 hb, if_false]
    by_cases h : (buf ++ [a]).length < size
    · obtain ⟨ys, buf', g', h1, h2⟩ := ih (buf ++ [a]) g h
      exact ⟨ys, buf', g', .pullItem hact h1, h2⟩
    · have hl : size ≤ (buf ++ [a]).length := by omega
      obtain ⟨i, g1, hi, he⟩ := shufPop_cases R ⟨buf ++ [a], g, .fill⟩ (by simp)
      have hact2 : (shuffleW D R size).act ⟨buf ++ [a], g, .fill⟩ =
          .emit (buf ++ [a])[i] ⟨(buf ++ [a]).eraseIdx i, g1, .fill⟩ := by
        simp only [shuffleW, hl, if_true]; exact he
      obtain ⟨ys, buf', g', h1, h2⟩ := ih ((buf ++ [a]).eraseIdx i) g1 (by
        rw [List.length_eraseIdx, if_pos hi, List.length_append, List.length_singleton]; omega)
      exact ⟨_ :: ys, buf', g', .pullItem hact (.emit hact2 h1), h2⟩

theorem shuffle_drain_trans (buf : List (Smp C)) (g : ρ) :
    ∃ (ys : List (Smp C)) (g' : ρ), (shuffleW D R size).Trans ⟨buf, g, .drain⟩ [] (ys.map .item) ⟨[], g', .drain⟩ := by
  induction hn : buf.length generalizing buf g with
  | zero =>
    have : buf = [] := List.length_eq_zero_iff.1 hn
    subst this
    exact ⟨[], g, .nil⟩
  | succ n ih =>
    obtain ⟨i, g1, hi, he⟩ := shufPop_cases R ⟨buf, g, .drain⟩ (by simp only; omega)
    have hact : (shuffleW D R size).act ⟨buf, g, .drain⟩ = .emit buf[i] ⟨buf.eraseIdx i, g1, .drain⟩ := by
      have : 0 < buf.length := by omega
      simp only [shuffleW, this, if_true]; exact he
    simp only at hi
    obtain ⟨ys, g', h1⟩ := ih (buf.eraseIdx i) g1 (by rw [List.length_eraseIdx, if_pos hi]; omega)
    exact ⟨_ :: ys, g', .emit hact h1⟩

end Verif.Stream
