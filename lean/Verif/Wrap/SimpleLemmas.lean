import Verif.Wrap.SimpleModel
import Verif.Stream.Lemmas

/-! # Lemmas about `loopW` -/

namespace Verif.Stream

variable {σ α β κ C C' : Type}
variable {body : Nat → α → LoopRes β} {rs : List Key → Option β} {has : Bool}

theorem loopW_noReset : (loopW body rs has).NoReset := by
  intro x x' h
  simp only [loopW] at h
  split at h
  · cases h
  · split at h <;> cases h
  · cases h

/-- what the loop does is independent of what it saves -/
theorem loopW_inv {D : Dataset σ α κ} (r : Bool) :
    WInv (Source.single D) (loopW body rs has) (D.Paused r)
      (fun x => ∀ a, x.ctl = .got a → D.Yields r a) (fun x => x.ctl = .loop) := by
  refine WInv.mk' loopW_noReset ?_ ?_ ?_ ?_ ?_ ?_
  · intro x hx a h; rw [hx] at h; cases h
  · intro x b x' hx h
    simp only [loopW] at h
    split at h
    · cases h
    · split at h <;> cases h
      rfl
    · cases h
  · intro x x' hx h
    simp only [loopW] at h
    split at h
    · cases h
    · split at h <;> cases h
    · cases h; rfl
  · intro x x' hx h
    simp only [loopW] at h
    split at h
    · cases h
    · split at h <;> cases h
      intro a h; cases h
    · cases h
  · intro x i f g hx h a ha
    simp only [loopW] at h
    split at h
    · cases h
      intro a' h; cases h; exact ha
    · split at h <;> cases h
    · cases h
  · intro x i f g hx h _
    simp only [loopW] at h
    split at h
    · cases h
      intro a' h; cases h
    · split at h <;> cases h
    · cases h

theorem loopW_paused {D : Dataset σ α κ} {r : Bool} {p : σ × LoopX α}
    (h : (wrap D (loopW body rs has)).Paused r p) : D.Paused r p.1 ∧ p.2.ctl = .loop :=
  wrap_paused (loopW_inv r) rfl (fun _ _ => rfl) (fun _ _ _ => rfl) h

theorem loopW_resumes {D : Dataset σ α κ} {r : Bool} (hD : D.ResumesExactly r) :
    (wrap D (loopW body rs has)).ResumesExactly r := by
  refine wrap_resumes (loopW_inv r) rfl (fun _ _ => rfl) (fun _ _ _ => rfl) loopW_noReset hD ?_
  rintro s ⟨n, c⟩ _ hx
  simp only at hx
  subst hx
  exact Dataset.Equiv.refl _

theorem loopW_resets {D : Dataset σ α κ} (hD : D.ResetsToInit) :
    (wrap D (loopW body rs has)).ResetsToInit := by
  intro p h
  exact wrap_equiv loopW_noReset (hD _ (loopW_paused h).1) _

theorem loopW_emits {D : Dataset σ α κ} {r : Bool} {p q : σ × LoopX α} {b : β}
    (hp : (wrap D (loopW body rs has)).Paused r p)
    (h : Obs (wrap D (loopW body rs has)).step p (.item b q)) :
    ∃ n a, D.Yields r a ∧ body n a = .out b := by
  obtain ⟨h1, h2⟩ := loopW_paused hp
  refine WObs.emits (loopW_inv r) (Z := fun b => ∃ n a, D.Yields r a ∧ body n a = .out b) ?_ (wrap_obs.1 h) h1
    (fun a h => by rw [h2] at h; cases h)
  intro x b x' hx h
  simp only [loopW] at h
  split at h
  · cases h
  · next a hc =>
    split at h <;> cases h
    next hb => exact ⟨_, a, hx a hc, hb⟩
  · cases h

/-- The yielded sample, if any. -/
def LoopRes.out? : LoopRes β → Option β
  | .out b => some b
  | _ => none

/-- What the loop yields for the source samples `xs`, starting with counter `n` (`none`: it dies). -/
def loopSpec (body : Nat → α → LoopRes β) : Nat → List α → Option (List β)
  | _, [] => some []
  | n, a :: xs =>
    match body n a, loopSpec body (n + 1) xs with
    | .out b, some ys => some (b :: ys)
    | .drop, some ys => some ys
    | _, _ => none

theorem loopW_trans {n : Nat} {xs : List α} {ys : List β} (h : loopSpec body n xs = some ys) :
    (loopW body rs has).Trans ⟨n, .loop⟩ (xs.map .item) (ys.map .item) ⟨n + xs.length, .loop⟩ := by
  induction xs generalizing n ys with
  | nil => simp only [loopSpec, Option.some.injEq] at h; subst h; exact .nil
  | cons a xs ih =>
    simp only [loopSpec] at h
    split at h
    · next b ys' hb hr =>
      cases h
      have := ih hr
      rw [Nat.add_right_comm] at this
      exact Wrapper.Trans.pullItem (W := loopW body rs has) (x := ⟨n, .loop⟩) rfl
        (Wrapper.Trans.emit (W := loopW body rs has) (x := ⟨n, .got a⟩) (x' := ⟨n + 1, .loop⟩)
          (by simp only [loopW, hb]) this)
    · next ys' hb hr =>
      cases h
      have := ih hr
      rw [Nat.add_right_comm] at this
      exact Wrapper.Trans.pullItem (W := loopW body rs has) (x := ⟨n, .loop⟩) rfl
        (Wrapper.Trans.tau (W := loopW body rs has) (x := ⟨n, .got a⟩) (x' := ⟨n + 1, .loop⟩)
          (by simp only [loopW, hb]) this)
    · cases h

theorem loopW_pass {D : Dataset σ α κ} {n : Nat} {xs : List α} {ys : List β}
    (h : loopSpec body n xs = some ys) {s s' : σ} (hs : D.Pass s xs s') :
    (wrap D (loopW body rs has)).Pass (s, ⟨n, .loop⟩) ys (s', ⟨n + xs.length, .loop⟩) := by
  have h1 : (loopW body rs has).Trans ⟨n, .loop⟩ (passEvs xs) (ys.map .item) ⟨n + xs.length, .done⟩ := by
    have := (loopW_trans (rs := rs) (has := has) h).append
      (.pullFin (W := loopW body rs has) (x := ⟨n + xs.length, .loop⟩) rfl .nil)
    simpa [passEvs] using this
  exact h1.run_halt (by rfl) hs

theorem loopW_items {D : Dataset σ α κ} {n : Nat} {xs : List α} {ys : List β}
    (h : loopSpec body n xs = some ys) {s s' : σ} (hs : D.Items s xs s') :
    ∃ q, (wrap D (loopW body rs has)).Items (s, ⟨n, .loop⟩) ys q :=
  (loopW_trans h).run_some hs

theorem loopW_trans_inv {x x' : LoopX α} {es : List (Ev α)} {os : List (Ev β)}
    (h : (loopW body rs has).Trans x es os x') (ys : List β) (ho : os = ys.map .item)
    (hc : x'.ctl = .loop) :
    match x.ctl with
    | .loop => ∃ xs, es = xs.map .item ∧ loopSpec body x.idx xs = some ys ∧ x'.idx = x.idx + xs.length
    | .got a => ∃ xs, es = xs.map .item ∧ loopSpec body x.idx (a :: xs) = some ys ∧
        x'.idx = x.idx + xs.length + 1
    | .done => False := by
  induction h generalizing ys with
  | nil =>
    rw [hc]
    cases ys with
    | nil => exact ⟨[], rfl, rfl, rfl⟩
    | cons => cases ho
  | @emit x b x1 es os x2 h _ ih =>
    obtain ⟨n, c⟩ := x
    cases c with
    | loop => cases h
    | done => cases h
    | got a =>
      simp only [loopW] at h
      cases hb : body n a with
      | drop => rw [hb] at h; cases h
      | die => rw [hb] at h; cases h
      | out b' =>
        rw [hb] at h; cases h
        cases ys with
        | nil => cases ho
        | cons y ys =>
          simp only [List.map_cons, List.cons.injEq, Ev.item.injEq] at ho
          obtain ⟨rfl, ho⟩ := ho
          obtain ⟨xs, h1, h2, h3⟩ := ih ys ho hc
          simp only at h2 h3
          exact ⟨xs, h1, by simp only [loopSpec, hb, h2], by simp only; omega⟩
  | @halt x x1 es os x2 h _ ih =>
    cases ys with
    | nil => cases ho
    | cons => cases ho
  | @tau x x1 es os x2 h _ ih =>
    obtain ⟨n, c⟩ := x
    cases c with
    | loop => cases h
    | done => cases h
    | got a =>
      simp only [loopW] at h
      cases hb : body n a with
      | out b' => rw [hb] at h; cases h
      | die => rw [hb] at h; cases h
      | drop =>
        rw [hb] at h; cases h
        obtain ⟨xs, h1, h2, h3⟩ := ih ys ho hc
        simp only at h2 h3
        exact ⟨xs, h1, by simp only [loopSpec, hb, h2], by simp only; omega⟩
  | @pullItem x f g a es os x2 h _ ih =>
    obtain ⟨n, c⟩ := x
    cases c with
    | loop =>
      cases h
      obtain ⟨xs, h1, h2, h3⟩ := ih ys ho hc
      refine ⟨a :: xs, by rw [h1]; rfl, h2, ?_⟩
      simp only [List.length_cons] at h3 ⊢
      omega
    | done => cases h
    | got a => simp only [loopW] at h; split at h <;> cases h
  | @pullFin x f g es os x2 h _ ih =>
    obtain ⟨n, c⟩ := x
    cases c with
    | loop =>
      cases h
      exact absurd (ih ys ho hc) id
    | done => cases h
    | got a => simp only [loopW] at h; split at h <;> cases h

/-- Everything the wrapper delivers comes from the source in the specified way. -/
theorem loopW_items_inv {D : Dataset σ α κ} {r : Bool} {p q : σ × LoopX α} {ys : List β}
    (hp : (wrap D (loopW body rs has)).Paused r p)
    (h : (wrap D (loopW body rs has)).Items p ys q) :
    ∃ xs, D.Items p.1 xs q.1 ∧ loopSpec body p.2.idx xs = some ys ∧ q.2.idx = p.2.idx + xs.length := by
  obtain ⟨es, h1, h2⟩ := run_inv loopW_noReset h
  have h3 := loopW_trans_inv h2 ys rfl (loopW_paused (h.paused hp)).2
  rw [(loopW_paused hp).2] at h3
  obtain ⟨xs, h4, h5, h6⟩ := h3
  subst h4
  exact ⟨xs, h1, h5, h6⟩

theorem loopSpec_isSome {n : Nat} {xs : List α} (h : ∀ q ∈ xs.zipIdx n, body q.2 q.1 ≠ .die) :
    loopSpec body n xs = some ((xs.zipIdx n).filterMap fun q =>
      (body q.2 q.1).out?) := by
  induction xs generalizing n with
  | nil => rfl
  | cons a xs ih =>
    simp only [List.zipIdx_cons, List.mem_cons, forall_eq_or_imp] at h
    rw [loopSpec, ih h.2]
    cases hb : body n a with
    | out b => simp [hb, LoopRes.out?]
    | drop => simp [hb, LoopRes.out?]
    | die => exact absurd hb h.1

theorem loopSpec_some {n : Nat} {xs : List α} {ys : List β} (h : loopSpec body n xs = some ys) :
    (∀ q ∈ xs.zipIdx n, body q.2 q.1 ≠ .die) ∧ ys = (xs.zipIdx n).filterMap fun q =>
      (body q.2 q.1).out? := by
  have key : ∀ q ∈ xs.zipIdx n, body q.2 q.1 ≠ .die := by
    induction xs generalizing n ys with
    | nil => simp
    | cons a xs ih =>
      simp only [loopSpec] at h
      split at h
      · next hb hr =>
        simp only [List.zipIdx_cons, List.mem_cons, forall_eq_or_imp]
        exact ⟨by simp [hb], ih hr⟩
      · next hb hr =>
        simp only [List.zipIdx_cons, List.mem_cons, forall_eq_or_imp]
        exact ⟨by simp [hb], ih hr⟩
      · cases h
  refine ⟨key, ?_⟩
  rw [loopSpec_isSome key] at h
  exact (Option.some.inj h).symm

/-- An exception in the body leaves the generator. -/
theorem loopW_err {D : Dataset σ α κ} {n : Nat} {xs : List α} {ys : List β}
    (h : loopSpec body n xs = some ys) {s s' s'' : σ} {a : α} (hs : D.Items s xs s')
    (ha : Obs D.step s' (.item a s'')) (hb : body (n + xs.length) a = .die) :
    (wrap D (loopW body rs has)).Trace (s, ⟨n, .loop⟩) (ys.map .item ++ [.err]) := by
  have base : Obs (wrap D (loopW body rs has)).step (s', ⟨n + xs.length, .loop⟩) .err :=
    wrap_obs.2 (.pullItem (W := loopW body rs has) (x := ⟨n + xs.length, .loop⟩) rfl ha
      (.raise (by simp only [loopW, hb])))
  unfold Dataset.Items at hs
  induction xs generalizing n ys s with
  | nil =>
    simp only [loopSpec, Option.some.injEq] at h; subst h
    cases hs
    exact .err base
  | cons b xs ih =>
    cases hs with
    | item h1 h2 =>
    simp only [loopSpec] at h
    rw [List.length_cons, show n + (xs.length + 1) = n + 1 + xs.length by omega] at hb base
    split at h
    · next c ys' hc hr =>
      cases h
      refine .item (wrap_obs.2 (.pullItem (W := loopW body rs has) (x := ⟨n, .loop⟩) rfl h1
        (.emit (x' := ⟨n + 1, .loop⟩) (by simp only [loopW, hc])))) (ih hr h2 hb base)
    · next ys' hc hr =>
      cases h
      have := ih hr h2 hb base
      have e : (wrap D (loopW body rs has)).Equiv (s, ⟨n, .loop⟩) (_, ⟨n + 1, .loop⟩) :=
        Dataset.Equiv.of_obs fun o => by
          constructor
          · intro ho
            have := wrap_obs.1 ho
            cases this with
            | emit h => cases h
            | halt h => cases h
            | raise h => cases h
            | tau h => cases h
            | reset h => cases h
            | pullErr h h3 => cases h; cases h1.det h3
            | pullFin h h3 => cases h; cases h1.det h3
            | pullItem h h3 h4 =>
              cases h; cases h1.det h3
              cases h4 with
              | tau h h5 => simp only [loopW, hc] at h; cases h; exact wrap_obs.2 h5
              | emit h => simp only [loopW, hc] at h; cases h
              | halt h => simp only [loopW, hc] at h; cases h
              | raise h => simp only [loopW, hc] at h; cases h
              | reset h => simp only [loopW, hc] at h; cases h
              | pullErr h => simp only [loopW, hc] at h; cases h
              | pullFin h => simp only [loopW, hc] at h; cases h
              | pullItem h => simp only [loopW, hc] at h; cases h
          · intro ho
            exact wrap_obs.2 (.pullItem (W := loopW body rs has) (x := ⟨n, .loop⟩) rfl h1
              (.tau (x' := ⟨n + 1, .loop⟩) (by simp only [loopW, hc]) (wrap_obs.1 ho)))
      exact (e _).2 this
    · cases h

end Verif.Stream
