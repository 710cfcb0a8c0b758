import Verif.Loader.WorkerProps

/-!
# C119: saving a loader after an exception in a worker process, and resuming

Source: /repo src/megatron/energon/savable_loader.py:353-426 (`SavableDatasetWrapper.__iter__`): an exception of the dataset leaves the loop through both `finally` clauses; the second one stores a
checkpoint, whatever the time. The generator is dead afterwards (C116), but the command thread still answers `get_checkpoint`.
-/

namespace Verif.Loader

open Verif.Stream

variable {σ κ C : Type}

/-- savable_loader.py:415-426: the dataset raises, which leaves it in the state `r` (attributes set so far, its generator is gone). -/
def wraise (D : Dataset σ (Smp C) κ) (cfg : Cfg) (r : σ) (x : WAttr κ) : σ × WAttr κ :=
  (r, store cfg true (D.save r) { x with ctl := .fresh })

/-- The state of a worker that has checkpoints: the newest one of those whose index is not beyond what the user has got. -/
theorem store_true (cfg : Cfg) (k : κ) (x : WAttr κ) : ∃ pre, (store cfg true k x).cps = pre ++ [⟨some k, x.idx⟩] ∧
    (∀ cp ∈ pre, cp ∈ x.cps) ∨ (cfg.keep = 0 ∧ x.cps = [] ∧ (store cfg true k x).cps = []) := by
  unfold store
  simp only [Bool.true_or, if_true]
  split
  · cases h : x.cps with
    | nil =>
      next hc =>
      rw [h] at hc
      exact ⟨[], .inr ⟨by simpa using hc, rfl, by simp⟩⟩
    | cons a l => exact ⟨l, .inl ⟨by simp, fun cp hcp => by simp [hcp]⟩⟩
  · exact ⟨x.cps, .inl ⟨rfl, fun _ h => h⟩⟩

theorem find_last {κ : Type} {l pre : List (Cp κ)} {c : Cp κ} (h : l = pre ++ [c]) (n : Nat) :
    l.reverse.find? (fun c => c.idx ≤ n) = if c.idx ≤ n then some c else pre.reverse.find? (fun c => c.idx ≤ n) := by
  rw [h, List.reverse_append, List.reverse_singleton, List.singleton_append, List.find?_cons]
  by_cases hc : c.idx ≤ n <;> simp [hc]

/-- What is known when the dataset of a worker has raised. -/
theorem raised_checkpoint {D : Dataset σ (Smp C) κ} {cfg : Cfg} (hk : 2 ≤ cfg.keep) (r : σ) (x : WAttr κ) (last : Nat) :
    (x.idx ≤ last + 1 → getCheckpoint (wraise D cfg r x).2 last = some ⟨some (D.save r), x.idx, last + 1 - x.idx⟩) ∧
    (last + 1 < x.idx → ∀ k, getCheckpoint (wraise D cfg r x).2 last = some k → ∃ cp ∈ x.cps, cp.idx ≤ last + 1 ∧ k = ⟨cp.data, cp.idx, last + 1 - cp.idx⟩) := by
  obtain ⟨pre, ⟨h1, h2⟩ | ⟨h1, -, -⟩⟩ := store_true cfg (D.save r) { x with ctl := .fresh }
  · have h3 := find_last h1 (last + 1)
    simp only at h3
    constructor
    · intro hle
      rw [if_pos hle] at h3
      unfold getCheckpoint wraise
      dsimp only
      rw [h3]
      rfl
    · intro hlt k hkk
      rw [if_neg (by omega)] at h3
      unfold getCheckpoint wraise at hkk
      dsimp only at hkk
      rw [h3] at hkk
      cases hf : pre.reverse.find? (fun c => c.idx ≤ last + 1) with
      | none => rw [hf] at hkk; cases hkk
      | some cp =>
        rw [hf] at hkk
        cases hkk
        exact ⟨cp, h2 cp (by simpa using List.mem_of_find?_eq_some hf), by simpa using List.find?_some hf, rfl⟩
  · omega

/-- Histories of one worker with exceptions. `IncE D gid M N s c₀ u c`: `u` is a state in which a worker process can start after any number of saves, restores and exceptions, and `c` samples of this worker have been
delivered to the user before. The last exception after which the user has gone on came after `c₀` samples, and the dataset has gone on from the state `s`; in the beginning `c₀ = 0` and `s` is the initial state.
As in C36: in each process the worker has answered some samples `xs`, up to at most `N` in total from `s` on, and is at most `M` samples ahead of the user when he saves. Then
* (`restored`) the worker runs when the state is saved; or
* (`ahead`) its dataset has raised, but some samples before that have not been delivered; or
* (`raised`) its dataset has raised, and all samples before that have been delivered, at least one from this process. The exception has left the dataset in any state `r`. -/
inductive IncE (D : Dataset σ (Smp C) κ) (gid M : Nat) : Nat → σ → Nat → σ × WAttr κ → Nat → Prop where
  | fresh {N : Nat} : IncE D gid M N D.init 0 (wfresh D) 0
  | restored {N : Nat} {s : σ} {c₀ : Nat} {u : σ × WAttr κ} {c : Nat} {cfg : Cfg} {xs : List (Nat × Smp C)} {p : σ × WAttr κ} {c' : Nat} {k : WState κ} :
      IncE D gid M N s c₀ u c → 2 ≤ cfg.keep → M ≤ cfg.minN → Outs D cfg gid u xs p → c + xs.length ≤ N → c < c' → c' ≤ c + xs.length → c + xs.length ≤ c' + M →
      getCheckpoint p.2 (c' - 1) = some k → IncE D gid M N s c₀ (wresume D k) c'
  | ahead {N : Nat} {s : σ} {c₀ : Nat} {u : σ × WAttr κ} {c : Nat} {cfg : Cfg} {xs : List (Nat × Smp C)} {p : σ × WAttr κ} {r : σ} {c' : Nat} {k : WState κ} :
      IncE D gid M N s c₀ u c → 2 ≤ cfg.keep → M ≤ cfg.minN → Outs D cfg gid u xs p → c + xs.length ≤ N → Obs (wstep D cfg gid) p .err → c < c' → c' < c + xs.length →
      getCheckpoint (wraise D cfg r p.2).2 (c' - 1) = some k → IncE D gid M N s c₀ (wresume D k) c'
  | raised {N N' : Nat} {s : σ} {c₀ : Nat} {u : σ × WAttr κ} {c : Nat} {cfg : Cfg} {xs : List (Nat × Smp C)} {p : σ × WAttr κ} {r : σ} {k : WState κ} :
      IncE D gid M N s c₀ u c → 2 ≤ cfg.keep → M ≤ cfg.minN → Outs D cfg gid u xs p → c + xs.length ≤ N → Obs (wstep D cfg gid) p .err → xs ≠ [] →
      getCheckpoint (wraise D cfg r p.2).2 (c + xs.length - 1) = some k → IncE D gid M N' (D.resume (D.save r)) (c + xs.length) (wresume D k) (c + xs.length)

/-- The histories of C36 are among them. -/
theorem Inc.incE {D : Dataset σ (Smp C) κ} {gid M N : Nat} {u : σ × WAttr κ} {c : Nat} (h : Inc D gid M N u c) : IncE D gid M N D.init 0 u c := by
  induction h with
  | fresh => exact .fresh
  | restored _ hk hm ho hN h1 h2 h3 hg ih => exact .restored ih hk hm ho hN h1 h2 h3 hg

/-! ### Proofs -/

theorem wobs_count {D : Dataset σ (Smp C) κ} {cfg : Cfg} {gid : Nat} {p q : σ × WAttr κ} {b : Nat × Smp C} (h : Obs (wstep D cfg gid) p (.item b q)) :
    q.2.idx + q.2.skip = p.2.idx + p.2.skip + 1 ∧ q.2.skip = 0 ∧ ∀ cp ∈ q.2.cps, cp.data = none → cp ∈ p.2.cps := by
  generalize ho : Out.item b q = o at h
  induction h with
  | @item p a q' h =>
    cases ho
    obtain ⟨s, x⟩ := p
    simp only [wstep] at h
    split at h
    · cases h
    · split at h
      · split at h
        · cases h
        · cases h
          refine ⟨?_, ?_, fun cp hcp hn => ?_⟩
          · rw [(store_idx _ _ _).1, (store_idx _ _ _).2.1]
            simp only
            omega
          · rw [(store_idx _ _ _).2.1]
            simp only
            omega
          · rcases store_cps _ _ _ cp hcp with hcp | hcp
            · exact hcp
            · rw [hcp] at hn
              cases hn
      · cases h
      · split at h <;> cases h
      · cases h
  | fin h => cases ho
  | err h => cases ho
  | @skip p p' o h _ ih =>
    obtain ⟨h1, h2, h3⟩ := ih ho
    have key : p'.2.idx + p'.2.skip = p.2.idx + p.2.skip ∧ p'.2.cps = p.2.cps := by
      obtain ⟨s, x⟩ := p
      simp only [wstep] at h
      split at h
      · cases h; exact ⟨rfl, rfl⟩
      · split at h
        · split at h
          · cases h
            refine ⟨?_, rfl⟩
            simp only
            omega
          · cases h
        · cases h; exact ⟨rfl, rfl⟩
        · split at h
          · cases h; exact ⟨rfl, rfl⟩
          · cases h
        · cases h
    exact ⟨by omega, h2, fun cp hcp hn => key.2 ▸ h3 cp hcp hn⟩

theorem Outs.count {D : Dataset σ (Smp C) κ} {cfg : Cfg} {gid : Nat} {u p : σ × WAttr κ} {xs : List (Nat × Smp C)} (h : Outs D cfg gid u xs p) :
    p.2.idx + p.2.skip = u.2.idx + u.2.skip + xs.length ∧ (xs ≠ [] → p.2.skip = 0) ∧ ∀ cp ∈ p.2.cps, cp.data = none → cp ∈ u.2.cps := by
  induction h with
  | nil => exact ⟨rfl, fun h => absurd rfl h, fun _ h _ => h⟩
  | next _ ho ih =>
    obtain ⟨h1, h2, h3⟩ := wobs_count ho
    refine ⟨?_, fun _ => h2, fun cp hcp hn => ih.2.2 cp (h3 cp hcp hn) hn⟩
    rw [List.length_append, List.length_singleton]
    omega

theorem getCheckpoint_mem {x : WAttr κ} {last : Nat} {k : WState κ} (h : getCheckpoint x last = some k) :
    ∃ cp ∈ x.cps, cp.idx ≤ last + 1 ∧ k = ⟨cp.data, cp.idx, last + 1 - cp.idx⟩ := by
  unfold getCheckpoint at h
  cases hf : x.cps.reverse.find? (fun c => c.idx ≤ last + 1) with
  | none => rw [hf] at h; cases h
  | some cp =>
    rw [hf] at h
    cases h
    exact ⟨cp, by simpa using List.mem_of_find?_eq_some hf, by simpa using List.find?_some hf, rfl⟩

/-- Index and samples to skip together are the number of samples the user has got; and there is no checkpoint of a new dataset any more after an exception. -/
theorem IncE.total {D : Dataset σ (Smp C) κ} {gid M N : Nat} {s : σ} {c₀ : Nat} {u : σ × WAttr κ} {c : Nat} (h : IncE D gid M N s c₀ u c) :
    u.2.idx + u.2.skip = c ∧ ∀ cp ∈ u.2.cps, cp.data = none → s = D.init := by
  induction h with
  | fresh => exact ⟨rfl, fun _ _ _ => rfl⟩
  | restored _ hk hm ho hN h1 h2 h3 hg ih =>
    obtain ⟨cp, h4, h5, rfl⟩ := getCheckpoint_mem hg
    refine ⟨?_, fun cp' hcp' hn => ?_⟩
    · simp only [wresume]; omega
    · simp only [wresume, List.mem_singleton] at hcp'
      rw [hcp'] at hn
      cases hn
  | @ahead N s c₀ u c cfg xs p r c' k _ hk hm ho hN he h1 h2 hg ih =>
    obtain ⟨cp, h4, h5, rfl⟩ := getCheckpoint_mem hg
    refine ⟨?_, fun cp' hcp' hn => ?_⟩
    · simp only [wresume]; omega
    · simp only [wresume, List.mem_singleton] at hcp'
      rw [hcp'] at hn
      cases hn
  | @raised N N' s c₀ u c cfg xs p r k _ hk hm ho hN he hx hg ih =>
    have hlen : 0 < xs.length := List.length_pos_iff.2 hx
    obtain ⟨cp, h4, h5, rfl⟩ := getCheckpoint_mem hg
    refine ⟨?_, fun cp' hcp' hn => ?_⟩
    · simp only [wresume]; omega
    · simp only [wresume, List.mem_singleton] at hcp'
      rw [hcp'] at hn
      cases hn

/-- The dataset as it goes on from the state `s`. -/
abbrev from' (D : Dataset σ (Smp C) κ) (s : σ) : Dataset σ (Smp C) κ := { D with init := s }

theorem Outs.from {D : Dataset σ (Smp C) κ} (s : σ) {cfg : Cfg} {gid : Nat} {u p : σ × WAttr κ} {xs : List (Nat × Smp C)} (h : Outs D cfg gid u xs p) :
    Outs (from' D s) cfg gid u xs p := by
  induction h with
  | nil => exact .nil
  | next _ ho ih => exact .next ih ho

theorem Outs.back {D : Dataset σ (Smp C) κ} (s : σ) {cfg : Cfg} {gid : Nat} {u p : σ × WAttr κ} {xs : List (Nat × Smp C)} (h : Outs (from' D s) cfg gid u xs p) :
    Outs D cfg gid u xs p := by
  induction h with
  | nil => exact .nil
  | next _ ho ih => exact .next ih ho

theorem resumed {D : Dataset σ (Smp C) κ} {s : σ} (hD : (from' D s).ResumesExactly) {st : Nat → σ} {c₀ N c' : Nat} {cp : Cp κ} (hn : cp.data = none → s = D.init)
    (hok : CpOk (from' D s) st c₀ N cp) (h1 : cp.idx ≤ c' - 1 + 1) (h2 : 0 < c') (h3 : c' ≤ N) : Begin (from' D s) st c₀ N c' (wresume D ⟨cp.data, cp.idx, c' - 1 + 1 - cp.idx⟩) := by
  have e : wresume D ⟨cp.data, cp.idx, c' - 1 + 1 - cp.idx⟩ = wresume (from' D s) ⟨cp.data, cp.idx, c' - 1 + 1 - cp.idx⟩ := by
    cases hd : cp.data with
    | none => simp only [wresume, resumeOpt, hn hd]
    | some a => rfl
  rw [e]
  refine ⟨⟨hok.2.2.1, hok.2.2.2, hok.1, hok.2.1, ?_⟩, ?_, ⟨_, rfl⟩, h3⟩
  · intro cp' hcp'
    simp only [wresume, List.mem_singleton] at hcp'
    subst hcp'
    exact CpOk.save hD hok.1 hok.2.1 hok.2.2.1 hok.2.2.2
  · simp only [wresume]; omega

theorem IncE.begin {D : Dataset σ (Smp C) κ} {f : Nat → Smp C} {gid M N : Nat} {s : σ} {c₀ : Nat} {u : σ × WAttr κ} {c : Nat} (h : IncE D gid M N s c₀ u c)
    (hD : (from' D s).ResumesExactly) {st : Nat → σ} (h0 : st c₀ = s) (hcN : c₀ ≤ N) (hr : RunFrom (from' D s) f c₀ N st) : Begin (from' D s) st c₀ N c u := by
  induction h with
  | fresh =>
    refine ⟨⟨.init, ?_, Nat.zero_le _, Nat.zero_le _, ?_⟩, rfl, ⟨none, rfl⟩, Nat.zero_le _⟩
    · simp only [wfresh, h0]; exact Dataset.Equiv.refl _
    · intro cp hcp
      simp only [wfresh, List.mem_singleton] at hcp
      subst hcp
      refine ⟨Nat.zero_le _, Nat.zero_le _, .init, ?_⟩
      simp only [resumeOpt, h0]; exact Dataset.Equiv.refl _
  | @restored N s c₀ u c cfg xs p c' k hin hk hm ho hN hc1 hc2 hc3 hg ih =>
    obtain ⟨-, hd⟩ := During.outs hD hr hk hm (ih hD h0 hcN hr) (ho.from s) hN
    obtain ⟨cp, h1, h2, rfl⟩ := getCheckpoint_mem hg
    exact resumed hD (fun hn => hin.total.2 cp (ho.count.2.2 cp h1 hn) hn) (hd.at_.cps cp h1) h2 (by omega) (by omega)
  | @ahead N s c₀ u c cfg xs p r c' k hin hk hm ho hN he hc1 hc2 hg ih =>
    obtain ⟨-, hd⟩ := During.outs hD hr hk hm (ih hD h0 hcN hr) (ho.from s) hN
    have h1 := hin.total.1
    have h2 := ho.count
    have h3 := h2.2.1 (by intro e; rw [e] at hc2; simp only [List.length_nil] at hc2; omega)
    obtain ⟨cp, h1, h2, rfl⟩ := (raised_checkpoint hk r p.2 (c' - 1)).2 (by omega) k hg
    exact resumed hD (fun hn => hin.total.2 cp (ho.count.2.2 cp h1 hn) hn) (hd.at_.cps cp h1) h2 (by omega) (by omega)
  | @raised N N' s c₀ u c cfg xs p r k hin hk hm ho hN he hx hg ih =>
    have hlen : 0 < xs.length := List.length_pos_iff.2 hx
    have h1 := hin.total.1
    have h2 := ho.count
    have h3 := h2.2.1 hx
    rw [(raised_checkpoint hk r p.2 (c + xs.length - 1)).1 (by omega)] at hg
    cases hg
    refine ⟨⟨.init, ?_, ?_, ?_, ?_⟩, ?_, ⟨_, rfl⟩, hcN⟩
    · simp only [wresume, resumeOpt]
      rw [show p.2.idx = c + xs.length by omega, h0]
      exact Dataset.Equiv.refl _
    · simp only [wresume]; omega
    · simp only [wresume]; omega
    · intro cp hcp
      simp only [wresume, List.mem_singleton] at hcp
      subst hcp
      refine CpOk.save (D := from' D (D.resume (D.save r))) hD (by omega) (by omega) .init ?_
      rw [show p.2.idx = c + xs.length by omega, h0]
      exact Dataset.Equiv.refl _
    · simp only [wresume]; omega

/-! ### The property -/

/-- **C119, the samples.** After any number of saves, restores and exceptions, saved before or after the exception has reached the user, a worker answers with exactly the samples that follow the ones delivered to the user, in the
run of the dataset from the state in which the last exception that has been delivered left it (as saved), numbering the samples on. The dataset has to resume exactly in this run. Missing: see `C119_violated_save`,
`C119_violated_first`; ends of passes as in C36. -/
theorem C119_exact_partial {D : Dataset σ (Smp C) κ} {f : Nat → Smp C} {gid M N : Nat} {s : σ} {c₀ : Nat} {u : σ × WAttr κ} {c : Nat} (h : IncE D gid M N s c₀ u c)
    (hD : ({ D with init := s } : Dataset σ (Smp C) κ).ResumesExactly) {st : Nat → σ} (h0 : st c₀ = s) (hcN : c₀ ≤ N) (hr : ∀ j, c₀ ≤ j → j < N → Obs D.step (st j) (.item (f j) (st (j + 1))))
    {cfg : Cfg} (hk : 2 ≤ cfg.keep) (hm : M ≤ cfg.minN) (m : Nat) (hN : c + m ≤ N) :
    ∃ q, Outs D cfg gid u ((List.range m).map fun j => (c + j, (f (c + j)).addKey (loaderKey gid (c + j)))) q := by
  have hb := h.begin hD h0 hcN ⟨hr⟩
  suffices h : ∃ p, Outs (from' D s) cfg gid u ((List.range m).map fun j => (c + j, (f (c + j)).addKey (loaderKey gid (c + j)))) p ∧
      During (from' D s) st c₀ M N c u.2.idx m p from h.imp fun _ h => h.1.back s
  induction m with
  | zero => exact ⟨u, .nil, hb.during⟩
  | succ m ih =>
    obtain ⟨p, h1, h2⟩ := ih (by omega)
    obtain ⟨q, h3, h4⟩ := h2.step (cfg := cfg) (gid := gid) hD ⟨hr⟩ hk hm (by omega)
    refine ⟨q, ?_, h4⟩
    rw [List.range_succ, List.map_append]
    exact .next h1 h3

/-- **C119, a running worker can be saved** at any sample delivered from it, in any such history (as C37). -/
theorem C119_available_partial {D : Dataset σ (Smp C) κ} {f : Nat → Smp C} {gid M N : Nat} {s : σ} {c₀ : Nat} {u : σ × WAttr κ} {c : Nat} (h : IncE D gid M N s c₀ u c)
    (hD : ({ D with init := s } : Dataset σ (Smp C) κ).ResumesExactly) {st : Nat → σ} (h0 : st c₀ = s) (hcN : c₀ ≤ N) (hr : ∀ j, c₀ ≤ j → j < N → Obs D.step (st j) (.item (f j) (st (j + 1))))
    {cfg : Cfg} (hk : 2 ≤ cfg.keep) (hm : M ≤ cfg.minN) {xs : List (Nat × Smp C)} {p : σ × WAttr κ}
    (ho : Outs D cfg gid u xs p) (hN : c + xs.length ≤ N) {c' : Nat} (hc1 : c < c') (hc2 : c' ≤ c + xs.length) (hc3 : c + xs.length ≤ c' + M) :
    ∃ k, getCheckpoint p.2 (c' - 1) = some k ∧ k.idx + k.offset = c' := by
  have ih := h.begin hD h0 hcN ⟨hr⟩
  obtain ⟨-, hd⟩ := During.outs hD ⟨hr⟩ hk hm ih (ho.from s) hN
  have hidx := ih.idx
  have hskip := (hd.run (by omega)).1
  have hi2 := hd.idx
  obtain ⟨cp, h1, h2, h3⟩ := hd.spaced.find (last := c' - 1) (by omega) (by omega)
  exact ⟨_, h3, by simp only; omega⟩

/-- **C119, a worker whose exception has been delivered can be saved**, in any such history: the state is the one in which the exception has left the dataset, with nothing to skip. At least one sample has been delivered from
this process (else: `C119_violated_first`). -/
theorem C119_saved_partial {D : Dataset σ (Smp C) κ} {gid M N : Nat} {s : σ} {c₀ : Nat} {u : σ × WAttr κ} {c : Nat} (h : IncE D gid M N s c₀ u c)
    {cfg : Cfg} (hk : 2 ≤ cfg.keep) {xs : List (Nat × Smp C)} {p : σ × WAttr κ} (ho : Outs D cfg gid u xs p) (hx : xs ≠ []) (r : σ) :
    getCheckpoint (wraise D cfg r p.2).2 (c + xs.length - 1) = some ⟨some (D.save r), c + xs.length, 0⟩ := by
  have hlen : 0 < xs.length := List.length_pos_iff.2 hx
  have h1 := h.total.1
  have h2 := ho.count
  have h3 := h2.2.1 hx
  have h4 : p.2.idx = c + xs.length := by omega
  rw [(raised_checkpoint hk r p.2 (c + xs.length - 1)).1 (by omega), h4]
  congr 2
  omega

/-- Raises after the samples 0, 1, 2; the state it is left in is behind the sample that failed. -/
def failD : Dataset Nat (Smp Nat) Nat :=
  { init := 0, step := fun i => if i = 3 then .raise else .yield ⟨i, [.num i]⟩ (i + 1), save := id, resume := id, reset := fun _ => 0, restoreSample := fun _ => none, hasSamples := true }

theorem failD_resumes : failD.ResumesExactly := fun _ _ => Dataset.Equiv.refl _

/-- A worker of `failD` with a timer: three samples, then the exception. -/
theorem failD_outs (tick : Nat → Bool) (h2 : tick 2 = false) : Outs failD ⟨2, 2, tick⟩ 0 (wfresh failD)
    [(0, ⟨0, loaderKey 0 0 ++ [.num 0]⟩), (1, ⟨1, loaderKey 0 1 ++ [.num 1]⟩), (2, ⟨2, loaderKey 0 2 ++ [.num 2]⟩)]
    (3, store ⟨2, 2, tick⟩ false 3 ⟨3, 0, [⟨none, 0⟩, ⟨some 1, 1⟩], .run false true⟩) := by
  have e : store ⟨2, 2, tick⟩ false 2 ⟨2, 0, [⟨none, 0⟩, ⟨some 1, 1⟩], .run false true⟩ = (⟨2, 0, [⟨none, 0⟩, ⟨some 1, 1⟩], .run false true⟩ : WAttr Nat) := by
    simp [store, h2]
  have e1 : store ⟨2, 2, tick⟩ false 1 ⟨1, 0, [⟨none, 0⟩], .run false true⟩ = (⟨1, 0, [⟨none, 0⟩, ⟨some 1, 1⟩], .run false true⟩ : WAttr Nat) := by
    simp [store]
  refine .next (xs := [_, _]) (p := (2, ⟨2, 0, [⟨none, 0⟩, ⟨some 1, 1⟩], .run false true⟩))
    (.next (xs := [_]) (p := (1, ⟨1, 0, [⟨none, 0⟩, ⟨some 1, 1⟩], .run false true⟩))
      (.next (xs := []) .nil ?_) ?_) (.item rfl)
  · rw [← e1]
    exact .skip rfl (.item rfl)
  · rw [← e]
    exact .item rfl

/-- An example: two of the three samples have been delivered when the user saves; the third is delivered after the restart, then the exception comes again, and the user saves and restores: the worker goes on with the sample
behind the failing one. -/
theorem failD_history : IncE failD 0 2 9 4 3 (4, ⟨3, 0, [⟨some 4, 3⟩], .fresh⟩) 3 :=
  .raised (N := 3) (s := 0) (c₀ := 0) (c := 2) (cfg := ⟨2, 2, fun _ => false⟩) (r := 4) (xs := [(2, ⟨2, loaderKey 0 2 ++ [.num 2]⟩)]) (p := (3, ⟨3, 0, [⟨some 1, 1⟩], .run false true⟩)) (k := ⟨some 4, 3, 0⟩)
    (.ahead (c := 0) (cfg := ⟨2, 2, fun _ => false⟩) (r := 4) (k := ⟨some 1, 1, 1⟩) .fresh (Nat.le_refl _) (Nat.le_refl _) (failD_outs (fun _ => false) rfl) (Nat.le_refl _) (.err rfl) (by decide) (by decide) rfl)
    (Nat.le_refl _) (Nat.le_refl _) (.next (xs := []) .nil (.skip rfl (.skip rfl (.item rfl)))) (by decide) (.err rfl) (by simp) rfl

example : ∃ q, Outs failD ⟨2, 2, fun _ => true⟩ 0 (4, ⟨3, 0, [⟨some 4, 3⟩], .fresh⟩) ((List.range 6).map fun j => (3 + j, (⟨4 + j, [.num (4 + j)]⟩ : Smp Nat).addKey (loaderKey 0 (3 + j)))) q := by
  obtain ⟨q, hq⟩ := C119_exact_partial (f := fun j => ⟨j + 1, [.num (j + 1)]⟩) failD_history (fun _ _ => Dataset.Equiv.refl _) (st := fun j => j + 1) rfl (by decide)
    (fun j h1 _ => .item (by simp only [failD]; rw [if_neg (by omega)])) (cfg := ⟨2, 2, fun _ => true⟩) (Nat.le_refl _) (Nat.le_refl _) 6 (Nat.le_refl _)
  refine ⟨q, ?_⟩
  have e : ((List.range 6).map fun j => (3 + j, (⟨4 + j, [.num (4 + j)]⟩ : Smp Nat).addKey (loaderKey 0 (3 + j)))) =
      (List.range 6).map fun j => (3 + j, (⟨3 + j + 1, [.num (3 + j + 1)]⟩ : Smp Nat).addKey (loaderKey 0 (3 + j))) := by
    refine List.map_congr_left fun j _ => ?_
    rw [show 4 + j = 3 + j + 1 by omega]
  rw [e]
  exact hq

/-- **C119 is violated**: the forced checkpoint pushes out one that is still needed. One worker, three samples and then an exception; the user has got one sample when he saves. There is no state: `save_state` raises an exception. -/
theorem C119_violated_save : ∃ (cfg : Cfg) (xs : List (Nat × Smp Nat)) (p : Nat × WAttr Nat),
    2 ≤ cfg.keep ∧ 2 * 1 ≤ cfg.minN ∧ Outs failD cfg 0 (wfresh failD) xs p ∧ xs.length = 3 ∧ Obs (wstep failD cfg 0) p .err ∧
      ∀ r, getCheckpoint (wraise failD cfg r p.2).2 0 = none ∧ getCheckpoint (wraise failD cfg r p.2).2 1 = none := by
  refine ⟨⟨2, 2, fun i => i ≠ 2⟩, _, _, Nat.le_refl _, Nat.le_refl _, failD_outs _ rfl, rfl, .err rfl, fun r => ⟨rfl, rfl⟩⟩

/-- Without the timer it can be saved. -/
example : ∀ r, (getCheckpoint (wraise failD ⟨2, 2, fun _ => false⟩ r ⟨3, 0, [⟨none, 0⟩, ⟨some 1, 1⟩], .run false true⟩).2 0).isSome = true := fun _ => rfl

/-- Raises before its first sample. -/
def firstD : Dataset Nat (Smp Nat) Nat :=
  { init := 0, step := fun i => if i = 0 then .raise else .yield ⟨i, [.num i]⟩ (i + 1), save := id, resume := id, reset := fun _ => 0, restoreSample := fun _ => none, hasSamples := true }

/-- **C119 is violated** at the first sample: the dataset raises before the first sample of the worker, and the user saves after the exception. The main process asks for the state after sample 0, which has not been delivered; the
worker that is restored skips one sample, which nobody ever gets. -/
theorem C119_violated_first : ∃ k, getCheckpoint (wraise firstD ⟨2, 2, fun _ => false⟩ 1 (wfresh firstD).2).2 (counter ([] : List (Got Nat)) 0) = some k ∧
    Obs (wstep firstD ⟨2, 2, fun _ => false⟩ 0) (wfresh firstD) .err ∧
    Obs firstD.step (firstD.resume (firstD.save 1)) (.item ⟨1, [.num 1]⟩ 2) ∧
    ∃ q, Obs (wstep firstD ⟨2, 2, fun _ => false⟩ 0) (wresume firstD k) (.item (1, ⟨2, loaderKey 0 1 ++ [.num 2]⟩) q) :=
  ⟨_, rfl, .skip rfl (.err rfl), .item rfl, _, .skip rfl (.skip rfl (.item rfl))⟩

end Verif.Loader
