import Verif.Loader.WorkerModel
import Verif.Stream.Lemmas

/-! # The wrapper in a worker process -/

namespace Verif.Loader

open Verif.Stream

variable {σ κ C : Type} {D : Dataset σ (Smp C) κ} {cfg : Cfg} {gid : Nat}

theorem wobs_fresh {s : σ} {x : WAttr κ} {o : Out (σ × WAttr κ) (Nat × Smp C)} (hx : x.ctl = .fresh)
    (h : Obs (wstep D cfg gid) (s, { x with ctl := .run true false }) o) : Obs (wstep D cfg gid) (s, x) o :=
  .skip (by simp only [wstep, hx]) h

theorem wobs_item {s s' : σ} {x : WAttr κ} {a : Smp C} {lws has : Bool} (h : Obs D.step s (.item a s'))
    (hx : x.ctl = .run lws has) (hs : x.skip = 0) :
    Obs (wstep D cfg gid) (s, x) (.item (x.idx, a.addKey (loaderKey gid x.idx))
      (s', store cfg false (D.save s') { x with idx := x.idx + 1, ctl := .run false true })) := by
  generalize ho : Out.item a s' = o at h
  induction h with
  | item h => cases ho; exact .item (by simp only [wstep, hx, h, hs, Nat.lt_irrefl, if_false])
  | fin h => cases ho
  | err h => cases ho
  | skip h _ ih => exact .skip (by simp only [wstep, hx, h]) (ih ho)

theorem wobs_skip {s s' : σ} {x : WAttr κ} {a : Smp C} {lws has : Bool} (h : Obs D.step s (.item a s'))
    (hx : x.ctl = .run lws has) (hs : 0 < x.skip) {o : Out (σ × WAttr κ) (Nat × Smp C)}
    (h2 : Obs (wstep D cfg gid) (s', { x with skip := x.skip - 1, idx := x.idx + 1, ctl := .run true true }) o) :
    Obs (wstep D cfg gid) (s, x) o := by
  generalize ho : Out.item a s' = o' at h
  induction h with
  | item h => cases ho; exact .skip (by simp only [wstep, hx, h, hs, if_true]) h2
  | fin h => cases ho
  | err h => cases ho
  | skip h _ ih => exact .skip (by simp only [wstep, hx, h]) (ih ho)

theorem wobs_fin {s s' : σ} {x : WAttr κ} {has : Bool} (h : Obs D.step s (.fin s')) (hx : x.ctl = .run false has) :
    Obs (wstep D cfg gid) (s, x) (.fin (s', store cfg true (D.save s') { x with ctl := .fresh })) := by
  generalize ho : Out.fin s' = o at h
  induction h with
  | item h => cases ho
  | fin h => cases ho; exact .fin (by simp only [wstep, hx, h, Bool.and_false, Bool.false_eq_true, if_false])
  | err h => cases ho
  | skip h _ ih => exact .skip (by simp only [wstep, hx, h]) (ih ho)

theorem wobs_fin_empty {s s' : σ} {x : WAttr κ} {lws : Bool} (h : Obs D.step s (.fin s')) (hx : x.ctl = .run lws false) :
    Obs (wstep D cfg gid) (s, x) (.fin (s', store cfg true (D.save s') { x with ctl := .fresh })) := by
  generalize ho : Out.fin s' = o at h
  induction h with
  | item h => cases ho
  | fin h => cases ho; exact .fin (by simp only [wstep, hx, h, Bool.false_and, Bool.false_eq_true, if_false])
  | err h => cases ho
  | skip h _ ih => exact .skip (by simp only [wstep, hx, h]) (ih ho)

/-! ## Checkpoints hold the right state -/

/-- The uninterrupted run: the first `N` samples of the dataset are `f 0, ..., f (N-1)`, with the states in between. -/
structure RunOf (D : Dataset σ (Smp C) κ) (f : Nat → Smp C) (N : Nat) (st : Nat → σ) : Prop where
  init : st 0 = D.init
  item : ∀ j < N, Obs D.step (st j) (.item (f j) (st (j + 1)))

/-- The part of it behind the first `lo` samples. -/
structure RunFrom (D : Dataset σ (Smp C) κ) (f : Nat → Smp C) (lo N : Nat) (st : Nat → σ) : Prop where
  item : ∀ j, lo ≤ j → j < N → Obs D.step (st j) (.item (f j) (st (j + 1)))

theorem RunOf.run {D : Dataset σ (Smp C) κ} {f : Nat → Smp C} {N : Nat} {st : Nat → σ} (h : RunOf D f N st) : RunFrom D f 0 N st := ⟨fun j _ hj => h.item j hj⟩

/-- A checkpoint from which the run can be continued at index `cp.idx`. -/
def CpOk (D : Dataset σ (Smp C) κ) (st : Nat → σ) (lo N : Nat) (cp : Cp κ) : Prop :=
  lo ≤ cp.idx ∧ cp.idx ≤ N ∧ D.Paused false (resumeOpt D cp.data) ∧ D.Equiv (resumeOpt D cp.data) (st cp.idx)

structure At (D : Dataset σ (Smp C) κ) (st : Nat → σ) (lo N : Nat) (p : σ × WAttr κ) : Prop where
  paused : D.Paused false p.1
  equiv : D.Equiv p.1 (st p.2.idx)
  ge : lo ≤ p.2.idx
  le : p.2.idx ≤ N
  cps : ∀ cp ∈ p.2.cps, CpOk D st lo N cp

theorem store_idx (force : Bool) (k : κ) (x : WAttr κ) : (store cfg force k x).idx = x.idx ∧ (store cfg force k x).skip = x.skip ∧
    (store cfg force k x).ctl = x.ctl := by
  unfold store; split <;> exact ⟨rfl, rfl, rfl⟩

theorem store_cps (force : Bool) (k : κ) (x : WAttr κ) : ∀ cp ∈ (store cfg force k x).cps,
    cp ∈ x.cps ∨ cp = ⟨some k, x.idx⟩ := by
  intro cp hcp
  unfold store at hcp
  split at hcp
  · simp only at hcp
    split at hcp
    · have := List.mem_of_mem_tail hcp
      simpa using this
    · simpa using hcp
  · exact .inl hcp

theorem CpOk.save (hD : D.ResumesExactly) {st : Nat → σ} {lo N : Nat} {s : σ} {i : Nat} (hl : lo ≤ i) (hi : i ≤ N) (hp : D.Paused false s)
    (he : D.Equiv s (st i)) : CpOk D st lo N ⟨some (D.save s), i⟩ :=
  ⟨hl, hi, .resume hp, (hD s hp).symm.trans he⟩

/-- One `next` of the worker. -/
theorem At.next (hD : D.ResumesExactly) {f : Nat → Smp C} {lo N : Nat} {st : Nat → σ} (hr : RunFrom D f lo N st) :
    ∀ (k : Nat) (s : σ) (x : WAttr κ) (lws has : Bool), x.skip = k → x.ctl = .run lws has → At D st lo N (s, x) → x.idx + k < N →
    ∃ p, Obs (wstep D cfg gid) (s, x) (.item (x.idx + k, (f (x.idx + k)).addKey (loaderKey gid (x.idx + k))) p) ∧
      At D st lo N p ∧ p.2.idx = x.idx + k + 1 ∧ p.2.skip = 0 ∧ p.2.ctl = .run false true ∧
      ∃ (kk : κ) (y : WAttr κ), y.cps = x.cps ∧ y.idx = x.idx + k + 1 ∧ p.2 = store cfg false kk y := by
  intro k
  induction k with
  | zero =>
    intro s x lws has hs hx h hN
    obtain ⟨o, h1, h2⟩ := Dataset.Equiv.sim _ _ h.equiv.symm _ (hr.item x.idx h.ge hN)
    cases h2 with
    | @item _ _ s' h2 =>
      have hp' := h.paused.item h1
      refine ⟨_, wobs_item h1 hx hs, ?_, ?_, ?_, ?_, D.save s', { x with idx := x.idx + 1, ctl := .run false true }, rfl, rfl, rfl⟩
      · have hlo : lo ≤ x.idx := h.ge
        refine ⟨hp', ?_, ?_, ?_, ?_⟩
        · rw [(store_idx _ _ _).1]; exact h2.symm
        · rw [(store_idx _ _ _).1]; exact Nat.le_succ_of_le hlo
        · rw [(store_idx _ _ _).1]; exact hN
        · intro cp hcp
          rcases store_cps _ _ _ cp hcp with hcp | hcp
          · exact h.cps cp hcp
          · rw [hcp]; exact CpOk.save hD (Nat.le_succ_of_le hlo) hN hp' h2.symm
      · exact (store_idx _ _ _).1
      · exact (store_idx _ _ _).2.1.trans hs
      · exact (store_idx _ _ _).2.2
  | succ k ih =>
    intro s x lws has hs hx h hN
    obtain ⟨o, h1, h2⟩ := Dataset.Equiv.sim _ _ h.equiv.symm _ (hr.item x.idx h.ge (by omega))
    cases h2 with
    | @item _ _ s' h2 =>
      have hp' := h.paused.item h1
      have hat : At D st lo N (s', { x with skip := x.skip - 1, idx := x.idx + 1, ctl := .run true true }) :=
        ⟨hp', h2.symm, Nat.le_succ_of_le h.ge, by simp only; omega, h.cps⟩
      obtain ⟨p, h3, h4, h5, h6, h7, kk, y, h8, h9, h10⟩ := ih s' _ true true (by simp only; omega) rfl hat (by simp only; omega)
      simp only at h3 h5 h8 h9
      rw [show x.idx + 1 + k = x.idx + (k + 1) by omega] at h3 h5 h9
      exact ⟨p, wobs_skip h1 hx (by omega) h3, h4, h5, h6, h7, kk, y, h8, h9, h10⟩

/-- A new generator begins like a running one. -/
theorem At.nextFresh (hD : D.ResumesExactly) {f : Nat → Smp C} {lo N : Nat} {st : Nat → σ} (hr : RunFrom D f lo N st)
    {s : σ} {x : WAttr κ} (h : At D st lo N (s, x)) (hN : x.idx + x.skip < N) :
    ∃ p, Obs (wstep D cfg gid) (s, x) (.item (x.idx + x.skip, (f (x.idx + x.skip)).addKey (loaderKey gid (x.idx + x.skip))) p) ∧
      At D st lo N p ∧ p.2.idx = x.idx + x.skip + 1 ∧ p.2.skip = 0 ∧ p.2.ctl = .run false true ∧
      ∃ (kk : κ) (y : WAttr κ), y.cps = x.cps ∧ y.idx = x.idx + x.skip + 1 ∧ p.2 = store cfg false kk y := by
  cases hx : x.ctl with
  | run lws has => exact At.next hD hr _ s x lws has rfl hx h hN
  | fresh =>
    have hat : At D st lo N (s, { x with ctl := .run true false }) := ⟨h.paused, h.equiv, h.ge, h.le, h.cps⟩
    obtain ⟨p, h3, h4⟩ := At.next (cfg := cfg) (gid := gid) hD hr _ s _ true false rfl rfl hat hN
    exact ⟨p, wobs_fresh hx h3, h4⟩

/-! ## Checkpoints are spaced -/

/-- The checkpoints of a worker that has started at index `r`. -/
structure Spaced (minN r : Nat) (x : WAttr κ) : Prop where
  le : ∀ cp ∈ x.cps, cp.idx ≤ x.idx
  form : (∃ d, x.cps = [⟨d, r⟩]) ∨
    ∃ pre a b, x.cps = pre ++ [a, b] ∧ (a.idx + minN ≤ b.idx ∨ a.idx = 0)

theorem Spaced.store {minN r : Nat} {x y : WAttr κ} (hk : 2 ≤ cfg.keep) (hm : minN ≤ cfg.minN) (h : Spaced minN r x)
    (hc : y.cps = x.cps) (hi : x.idx < y.idx) (k : κ) : Spaced minN r (store cfg false k y) := by
  refine ⟨?_, ?_⟩
  · intro cp hcp
    rw [(store_idx _ _ _).1]
    rcases store_cps _ _ _ cp hcp with hcp | hcp
    · rw [hc] at hcp
      have := h.le cp hcp
      omega
    · rw [hcp]; exact Nat.le_refl _
  · unfold Loader.store
    split
    · next hcond =>
      have hgap : ∀ a : Cp κ, x.cps.getLast? = some a → a.idx + minN ≤ y.idx ∨ a.idx = 0 := by
        intro a ha
        have hlast : lastIdx y.cps = a.idx := by rw [lastIdx, hc, ha]; rfl
        have hle := h.le a (List.mem_of_getLast? ha)
        rw [hlast] at hcond
        simp at hcond
        rcases hcond with hcond | hcond
        · left; omega
        · right; omega
      simp only [hc]
      rcases h.form with ⟨d, hd⟩ | ⟨pre, a, b, hd, -⟩
      · rw [hd]
        right
        rw [if_neg (by simp; omega)]
        exact ⟨[], _, _, rfl, hgap ⟨d, r⟩ (by rw [hd]; rfl)⟩
      · right
        have hb := hgap b (by rw [hd]; simp)
        split
        · rw [hd]
          cases pre with
          | nil => exact ⟨[], b, ⟨some k, y.idx⟩, by simp, hb⟩
          | cons p pre => exact ⟨pre ++ [a], b, ⟨some k, y.idx⟩, by simp, hb⟩
        · rw [hd]
          exact ⟨pre ++ [a], b, ⟨some k, y.idx⟩, by simp, hb⟩
    · rw [hc]; exact h.form

/-- A checkpoint can be found. -/
theorem Spaced.find {minN r : Nat} {x : WAttr κ} (h : Spaced minN r x) {last : Nat} (hr : r ≤ last + 1)
    (hp : x.idx ≤ last + 1 + minN) : ∃ cp ∈ x.cps, cp.idx ≤ last + 1 ∧
      getCheckpoint x last = some ⟨cp.data, cp.idx, last + 1 - cp.idx⟩ := by
  have hex : ∃ cp ∈ x.cps, cp.idx ≤ last + 1 := by
    rcases h.form with ⟨d, hd⟩ | ⟨pre, a, b, hd, hg⟩
    · exact ⟨_, by rw [hd]; exact List.mem_singleton.2 rfl, hr⟩
    · refine ⟨a, by rw [hd]; simp, ?_⟩
      have := h.le b (by rw [hd]; simp)
      rcases hg with hg | hg <;> omega
  obtain ⟨cp, hcp, hle⟩ := hex
  cases hf : x.cps.reverse.find? (fun c => c.idx ≤ last + 1) with
  | none =>
    have := List.find?_eq_none.1 hf cp (List.mem_reverse.2 hcp)
    simp at this
    omega
  | some c =>
    have h1 := List.find?_some hf
    have h2 := List.mem_reverse.1 (List.mem_of_find?_eq_some hf)
    exact ⟨c, h2, by simpa using h1, by simp [getCheckpoint, hf]⟩

end Verif.Loader
