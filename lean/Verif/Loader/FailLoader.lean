import Verif.Loader.FailResume
import Verif.Loader.FailProps

/-!
# C119 for the whole loader: saving and resuming with exceptions in any of the worker processes

Source: /repo src/megatron/energon/savable_loader.py:353-426, 773-863, 880-910; as `Life`, `LInc` in `WorkerProps.lean` (C36), with the answers of `FailModel.lean` (C116): a worker whose dataset raises sends the exception as its
answer, and nothing but ends of the iteration afterwards. The command thread still answers `get_checkpoint`.
-/

namespace Verif.Loader

open Verif.Stream

variable {σ κ C E : Type}

/-- What happens to a worker in one life of a loader: `none`: its dataset does not raise; `some (k, r, e)`: after `k` samples it raises `e`, which leaves it in the state `r`. -/
abbrev Fate (σ E : Type) := Option (Nat × σ × E)

/-- Answers `i` of worker `w` -/
def rawOf (ft : Fate σ E) (w : Nat) (g : Nat → Nat × Smp C) (i : Nat) : Raw (Got C) E :=
  match ft with
  | none => .sample ⟨w, (g i).1, (g i).2⟩
  | some (k, _, e) => if i < k then .sample ⟨w, (g i).1, (g i).2⟩ else .raise e

/-- The attributes of the wrapper after `m` answers: nothing changes after the exception. -/
def attrs (D : Dataset σ (Smp C) κ) (cfg : Cfg) (ft : Fate σ E) (S : Nat → σ × WAttr κ) (m : Nat) : WAttr κ :=
  match ft with
  | none => (S m).2
  | some (k, r, _) => if m ≤ k then (S m).2 else (wraise D cfg r (S k).2).2

/-- One life of a loader, as `Life`; `ft w` is what happens to logical worker `w`. -/
structure LifeE (n rank : Nat) (D : Nat → Dataset σ (Smp C) κ) (us : Nat → σ × WAttr κ) (off : Nat) (cfg : Nat → Cfg) (ft : Nat → Fate σ E)
    (S : Nat → Nat → σ × WAttr κ) (g : Nat → Nat → Nat × Smp C) (s : Sys (Except E (Got C))) : Prop where
  start : ∀ w < n, S w 0 = us w
  answer : ∀ w < n, ∀ i, (∀ k r e, ft w = some (k, r, e) → i < k) → Obs (wstep (D w) (cfg w) (rank * n + w)) (S w i) (.item (g w i) (S w (i + 1)))
  raises : ∀ w < n, ∀ k r e, ft w = some (k, r, e) → Obs (wstep (D w) (cfg w) (rank * n + w)) (S w k) .err
  reach : Fails n (fun p => rawOf (ft (logical n off p)) (logical n off p) (g (logical n off p))) s

/-- The samples `next` has returned; when it raises, nothing is noted (savable_loader.py:807-815; `C116_books`). -/
def gotE (s : Sys (Except E (Got C))) : List (Got C) := s.hist.filterMap fun x => match x.2 with
  | .ok a => some a
  | .error _ => none

/-- Number of samples delivered from worker `w` in this life. -/
def deliveredE (s : Sys (Except E (Got C))) (w : Nat) : Nat := ((gotE s).filter (fun x => x.worker = w)).length

/-- Number of answers (with exception and ends) of logical worker `w` -/
def answered (n off : Nat) (s : Sys (Except E (Got C))) (w : Nat) : Nat := (s.procs (process n off w)).made

/-- The exception has been raised in the worker. -/
def Raised (ft : Fate σ E) (made k : Nat) (r : σ) : Prop := k < made ∧ ∃ e, ft = some (k, r, e)

/-- Where the dataset of a worker goes on: it runs from `state` since `since` samples of this worker; how it runs is considered up to sample `upto`. -/
structure Seg (σ : Type) where
  state : σ
  since : Nat
  upto : Nat

/-- Histories of a loader with exceptions, as `LInc`: `seg` says for each worker how its dataset goes on. If it has raised and all samples before have been delivered, it goes on from the state in which the exception has left it;
else (it has not raised, or samples before have not been delivered) as before. -/
inductive LIncE (n rank : Nat) (D : Nat → Dataset σ (Smp C) κ) : (Nat → Seg σ) → (Nat → σ × WAttr κ) → (Nat → Nat) → Nat → Prop where
  | new {N : Nat → Nat} : LIncE n rank D (fun w => ⟨(D w).init, 0, N w⟩) (fun w => wfresh (D w)) (fun _ => 0) 0
  | restored {seg seg' : Nat → Seg σ} {us cs off cfg S g} {ft : Nat → Fate σ E} {s : Sys (Except E (Got C))} {k : LState κ} :
      LIncE n rank D seg us cs off → (∀ w < n, 2 ≤ (cfg w).keep ∧ 2 * n ≤ (cfg w).minN) →
      LifeE n rank D us off cfg ft S g s → s.phase = .idle → (∀ w < n, 0 < deliveredE s w) → (∀ w < n, cs w + answered n off s w ≤ (seg w).upto) →
      saveLoader n (fun w => attrs (D w) (cfg w) (ft w) (S w) (answered n off s w)) (gotE s) = some k →
      (∀ w < n, (∃ r, Raised (ft w) (answered n off s w) (deliveredE s w) r ∧ (seg' w).state = (D w).resume ((D w).save r) ∧ (seg' w).since = cs w + deliveredE s w) ∨
        ((∀ r, ¬ Raised (ft w) (answered n off s w) (deliveredE s w) r) ∧ seg' w = seg w)) →
      LIncE n rank D seg' (fun w => wresume (D w) (k.workers w)) (fun w => cs w + deliveredE s w) k.next

/-! ### Proofs -/

theorem Obs.wobs_idx {D : Dataset σ (Smp C) κ} {cfg : Cfg} {gid : Nat} {p q : σ × WAttr κ} {b : Nat × Smp C} (h : Obs (wstep D cfg gid) p (.item b q)) : q.2.idx = b.1 + 1 := by
  generalize ho : Out.item b q = o at h
  induction h with
  | @item p a q' h =>
    cases ho
    obtain ⟨s, x⟩ := p
    simp only [wstep] at h
    split at h
    · cases h
    · split at h
      · split at h
        · cases h
        · cases h
          rw [(store_idx _ _ _).1]
      · cases h
      · split at h <;> cases h
      · cases h
  | fin h => cases ho
  | err h => cases ho
  | skip _ _ ih => exact ih ho

theorem IncE.mono {D : Dataset σ (Smp C) κ} {gid M N N' : Nat} {s : σ} {c₀ : Nat} {u : σ × WAttr κ} {c : Nat} (h : IncE D gid M N s c₀ u c) (hN : N ≤ N') : IncE D gid M N' s c₀ u c := by
  induction h generalizing N' with
  | fresh => exact .fresh
  | restored _ h1 h2 h3 h4 h5 h6 h7 h8 ih => exact .restored (ih hN) h1 h2 h3 (by omega) h5 h6 h7 h8
  | ahead _ h1 h2 h3 h4 h5 h6 h7 h8 ih => exact .ahead (ih hN) h1 h2 h3 (by omega) h5 h6 h7 h8
  | raised h0 h1 h2 h3 h4 h5 h6 h7 ih => exact .raised h0 h1 h2 h3 h4 h5 h6 h7

/-- What has been delivered has been made. -/
theorem delivered_le_made {α : Type} {n : Nat} {out : Nat → Nat → Option α} (hs : Sticky out) {s : Sys α} (h : Reach n out s) {w : Nat} (hw : w < n) : (ofWorker w s.hist).length ≤ (s.procs w).made := by
  have hn : 0 < n := by omega
  obtain ⟨got, low, hg⟩ := h.good hn hs
  obtain ⟨c, h1, h2⟩ := ofWorker_upto (out := out) hw low
  obtain ⟨d, h3, h4, h5, h6, h7⟩ := range_filterMap_sticky hs w c
  have : s.hist = upto n out low := hg.inv.hist
  rw [this, h2, h7]
  rcases Nat.eq_zero_or_pos d with h0 | h0
  · omega
  have hl := hg.inv.lowgot ((d - 1) * n + w) ((h1 (d - 1)).1 (by omega))
  rw [pos_mod hw, pos_div hw] at hl
  have h8 := hg.inv.gotmade w hw
  rcases hl with hl | hl
  · omega
  · obtain ⟨j, hj1, hj2, -, -⟩ := hg.inv.ended w hw (hg.inv.inact w hw hl).1
    rcases Nat.lt_or_ge (d - 1) j with hlt | hge
    · omega
    · exact absurd (hs.le hj2 hge) (h4 (d - 1) (by omega))

theorem rawOf_sample {ft : Fate σ E} {w : Nat} {g : Nat → Nat × Smp C} {i : Nat} {a : Got C} (h : rawOf ft w g i = .sample a) : a = ⟨w, (g i).1, (g i).2⟩ ∧ ∀ k r e, ft = some (k, r, e) → i < k := by
  unfold rawOf at h
  split at h
  · cases h; exact ⟨rfl, fun k r e h => by cases h⟩
  · rename_i k r e
    split at h
    · rename_i hi
      cases h
      refine ⟨rfl, fun k' r' e' h => ?_⟩
      cases h
      exact hi
    · cases h


/-- The samples of a logical worker are the ones of its process. -/
theorem LifeE.filter {n rank : Nat} {D : Nat → Dataset σ (Smp C) κ} {us : Nat → σ × WAttr κ} {off : Nat} {cfg : Nat → Cfg} {ft : Nat → Fate σ E}
    {S : Nat → Nat → σ × WAttr κ} {g : Nat → Nat → Nat × Smp C} {s : Sys (Except E (Got C))} (h : LifeE n rank D us off cfg ft S g s) (hoff : off < n) {w : Nat} (hw : w < n) :
    (gotE s).filter (fun x => x.worker = w) = (ofWorker (process n off w) s.hist).filterMap (fun x => match x.2 with | .ok a => some a | .error _ => none) := by
  have hn : 0 < n := by omega
  have hmem : ∀ x ∈ s.hist, x.1 < n ∧ ∀ a, x.2 = .ok a → a.worker = logical n off x.1 := by
    obtain ⟨got', low, hg⟩ := h.reach.good hn life_sticky
    intro x hx
    rw [hg.inv.hist, List.mem_filterMap] at hx
    obtain ⟨q, -, hq⟩ := hx
    cases ho : life ((fun p => rawOf (ft (logical n off p)) (logical n off p) (g (logical n off p))) (q % n)) (q / n) with
    | none => rw [ho] at hq; cases hq
    | some y =>
      rw [ho] at hq
      obtain rfl := Option.some.inj hq
      refine ⟨Nat.mod_lt _ hn, fun a ha => ?_⟩
      rcases (life_some ho).2 with ⟨b, hb, rfl⟩ | ⟨e, _, rfl⟩
      · cases ha
        rw [(rawOf_sample hb).1]
      · cases ha
  unfold gotE
  generalize s.hist = l at hmem
  induction l with
  | nil => rfl
  | cons x l ih =>
    have ih := ih fun y hy => hmem y (List.mem_cons_of_mem _ hy)
    obtain ⟨h3, h4⟩ := hmem x List.mem_cons_self
    obtain ⟨p, y⟩ := x
    cases y with
    | error e =>
      rw [List.filterMap_cons_none (by rfl), ih]
      unfold ofWorker
      by_cases hp : p = process n off w
      · rw [List.filter_cons_of_pos (by simpa using hp), List.filterMap_cons_none (by rfl)]
      · rw [List.filter_cons_of_neg (by simpa using hp)]
    | ok a =>
      have h5 : a.worker = logical n off p := h4 a rfl
      rw [List.filterMap_cons_some (by rfl)]
      unfold ofWorker at ih ⊢
      by_cases hp : p = process n off w
      · have h6 : a.worker = w := by rw [h5, hp, logical_process hoff hw]
        rw [List.filter_cons_of_pos (by simpa using h6), List.filter_cons_of_pos (by simpa using hp), List.filterMap_cons_some (by rfl), ih]
      · have h6 : a.worker ≠ w := by
          intro h7
          apply hp
          rw [← process_logical hoff (show p < n from h3), ← h5, h7]
        rw [List.filter_cons_of_neg (by simpa using h6), List.filter_cons_of_neg (by simpa using hp), ih]

/-- Facts about one life: what has been delivered, and how far the workers are ahead. -/
theorem LifeE.facts {n rank : Nat} {D : Nat → Dataset σ (Smp C) κ} {us : Nat → σ × WAttr κ} {off : Nat} {cfg : Nat → Cfg} {ft : Nat → Fate σ E}
    {S : Nat → Nat → σ × WAttr κ} {g : Nat → Nat → Nat × Smp C} {s : Sys (Except E (Got C))} (h : LifeE n rank D us off cfg ft S g s) (hoff : off < n) {w : Nat} (hw : w < n) :
    (gotE s).filter (fun x => x.worker = w) = (List.range (deliveredE s w)).map (fun i => ⟨w, (g w i).1, (g w i).2⟩) ∧ deliveredE s w ≤ answered n off s w ∧
    (∀ k r e, ft w = some (k, r, e) → deliveredE s w ≤ k) ∧
    ((∀ k r e, ft w = some (k, r, e) → answered n off s w ≤ k) → answered n off s w ≤ deliveredE s w + 2 * n) := by
  have hn : 0 < n := by omega
  have hp : process n off w < n := Nat.mod_lt _ hn
  have hf := h.filter hoff hw
  have hmade := delivered_le_made life_sticky h.reach hp
  obtain ⟨as, h1, h2⟩ := C116_results h.reach hp
  have hlp := logical_process hoff hw
  simp only [hlp] at h1 h2
  have hok : (as.map fun a => (process n off w, (Except.ok a : Except E (Got C)))).filterMap (fun x => match x.2 with | .ok a => some a | .error _ => none) = as := by
    induction as with
    | nil => rfl
    | cons a as ih =>
      clear h1 h2 ih
      rw [List.filterMap_map]
      exact List.filterMap_some
  have hall : (gotE s).filter (fun x => x.worker = w) = as := by
    rw [hf]
    rcases h2 with h2 | ⟨e, _, h2⟩
    · rw [h2, hok]
    · rw [h2, List.filterMap_append, hok]
      exact List.append_nil _
  have hd : deliveredE s w = as.length := by unfold deliveredE; rw [hall]
  have hlen : as.length ≤ (ofWorker (process n off w) s.hist).length := by
    rcases h2 with h2 | ⟨e, _, h2⟩
    · rw [h2, List.length_map]; omega
    · rw [h2, List.length_append, List.length_map]; omega
  have hass : as = (List.range as.length).map (fun i => (⟨w, (g w i).1, (g w i).2⟩ : Got C)) := by
    apply List.ext_getElem
    · simp
    · intro i hi _
      simp [(rawOf_sample (h1 i hi)).1]
  refine ⟨by rw [hall, hd]; exact hass, ?_, ?_, ?_⟩
  · rw [hd]; unfold answered; omega
  · intro k r e hft
    rw [hd]
    rcases Nat.eq_zero_or_pos as.length with h0 | h0
    · omega
    · have := (rawOf_sample (h1 (as.length - 1) (by omega))).2 k r e hft
      omega
  · intro hle
    rw [hd]
    unfold answered at hle ⊢
    rcases Nat.eq_zero_or_pos (s.procs (process n off w)).made with h0 | h0
    · omega
    have hsmp : ∀ i, i < (s.procs (process n off w)).made → rawOf (ft w) w (g w) i = .sample ⟨w, (g w i).1, (g w i).2⟩ := by
      intro i hi
      unfold rawOf
      split
      · rfl
      · rename_i k r e hft
        have := hle k r e hft
        rw [if_pos (by omega)]
    have hlife : ∀ i, i < (s.procs (process n off w)).made → life (rawOf (ft w) w (g w)) i ≠ none := by
      intro i hi
      rw [life_of fun j hj => ⟨_, hsmp j (by omega)⟩, hsmp i hi]
      simp [Raw.answer]
    have h9 := C35_prefetch life_sticky h.reach hp (i := (s.procs (process n off w)).made - 1) (by omega) (by simp only [hlp]; exact hlife _ (by omega))
    have h10 : (ofWorker (process n off w) s.hist).length = as.length := by
      rcases h2 with h2 | ⟨e, he, h2⟩
      · rw [h2, List.length_map]
      · exfalso
        have h11 : as.length < (s.procs (process n off w)).made := by
          rw [h2, List.length_append, List.length_map, List.length_singleton] at hmade
          omega
        rw [hsmp _ h11] at he
        cases he
    omega

theorem LifeE.outs {n rank : Nat} {D : Nat → Dataset σ (Smp C) κ} {us : Nat → σ × WAttr κ} {off : Nat} {cfg : Nat → Cfg} {ft : Nat → Fate σ E}
    {S : Nat → Nat → σ × WAttr κ} {g : Nat → Nat → Nat × Smp C} {s : Sys (Except E (Got C))} (h : LifeE n rank D us off cfg ft S g s) {w : Nat} (hw : w < n) (m : Nat)
    (hm : ∀ k r e, ft w = some (k, r, e) → m ≤ k) : Outs (D w) (cfg w) (rank * n + w) (us w) ((List.range m).map (g w)) (S w m) := by
  induction m with
  | zero => rw [h.start w hw]; exact .nil
  | succ m ih =>
    rw [List.range_succ, List.map_append]
    exact .next (ih fun k r e hf => by have := hm k r e hf; omega) (h.answer w hw m fun k r e hf => by have := hm k r e hf; omega)

theorem LifeE.index {n rank : Nat} {D : Nat → Dataset σ (Smp C) κ} {us : Nat → σ × WAttr κ} {off : Nat} {cfg : Nat → Cfg} {ft : Nat → Fate σ E}
    {S : Nat → Nat → σ × WAttr κ} {g : Nat → Nat → Nat × Smp C} {s : Sys (Except E (Got C))} (h : LifeE n rank D us off cfg ft S g s) {w c : Nat} (hw : w < n)
    (hc : (us w).2.idx + (us w).2.skip = c) (i : Nat) (hi : ∀ k r e, ft w = some (k, r, e) → i < k) : (g w i).1 = c + i := by
  have h1 := h.outs hw (i + 1) fun k r e hf => hi k r e hf
  obtain ⟨h2, h3, -⟩ := h1.count
  have h4 := h3 (by simp)
  have h5 := Obs.wobs_idx (h.answer w hw i hi)
  simp only [List.length_map, List.length_range] at h2
  omega

theorem LIncE.inc {n rank : Nat} (hn : 0 < n) {D : Nat → Dataset σ (Smp C) κ} {seg : Nat → Seg σ} {us : Nat → σ × WAttr κ} {cs : Nat → Nat} {off : Nat}
    (h : LIncE (E := E) n rank D seg us cs off) :
    off < n ∧ ∀ w < n, IncE (D w) (rank * n + w) (2 * n) (seg w).upto (seg w).state (seg w).since (us w) (cs w) := by
  induction h with
  | new => exact ⟨hn, fun w _ => .fresh⟩
  | @restored seg seg' us cs off cfg S g ft s k _ hcfg hl hidle hpos hN hsave hseg ih =>
    obtain ⟨hoff, ih⟩ := ih
    unfold saveLoader at hsave
    split at hsave
    · next hall =>
      cases hsave
      refine ⟨?_, ?_⟩
      · simp only [nextWorker]
        cases (gotE s).getLast? with
        | none => exact hn
        | some x => exact Nat.mod_lt _ hn
      · intro w hw
        have hi := ih w hw
        obtain ⟨h1, h2, h3, h4⟩ := hl.facts hoff hw
        have hp := hpos w hw
        have hNw := hN w hw
        have hcount : counter (gotE s) w = cs w + deliveredE s w - 1 := by
          unfold counter
          rw [h1]
          obtain ⟨d, hd⟩ := Nat.exists_eq_succ_of_ne_zero (by omega : deliveredE s w ≠ 0)
          have := hl.index hw hi.total.1 d (fun k r e hf => by have := h3 k r e hf; omega)
          rw [hd, List.range_succ, List.map_append]
          simp [this]
        have hall := List.all_eq_true.1 hall w (List.mem_range.2 hw)
        obtain ⟨x, hx⟩ := Option.isSome_iff_exists.1 hall
        rw [hcount] at hx
        show IncE _ _ _ _ _ _ (wresume (D w) ((getCheckpoint (attrs (D w) (cfg w) (ft w) (S w) (answered n off s w)) (counter (gotE s) w)).getD ⟨none, 0, 0⟩)) (cs w + deliveredE s w)
        rw [hcount, hx, Option.getD_some]
        by_cases hr : ∃ k r e, ft w = some (k, r, e) ∧ k < answered n off s w
        · obtain ⟨k, r, e, hft, hk⟩ := hr
          have ho := hl.outs hw k (fun k' r' e' hf => by rw [hft] at hf; cases hf; exact Nat.le_refl _)
          have he := hl.raises w hw k r e hft
          have hdk := h3 k r e hft
          dsimp only at hx
          rw [hft] at hx
          simp only [attrs, if_neg (Nat.not_le.2 hk)] at hx
          rcases Nat.lt_or_ge (deliveredE s w) k with hlt | hge
          · rcases hseg w hw with ⟨r', ⟨h5, e', h6⟩, -⟩ | ⟨-, h5⟩
            · rw [hft] at h6; cases h6; omega
            · rw [h5]
              exact .ahead (xs := (List.range k).map (g w)) (c' := cs w + deliveredE s w) (r := r) hi (hcfg w hw).1 (hcfg w hw).2 ho (by simp; omega) he (by omega) (by simp; omega) hx
          · have hdk' : deliveredE s w = k := by omega
            rcases hseg w hw with ⟨r', ⟨h5, e', h6⟩, h7, h8⟩ | ⟨h5, -⟩
            · have h9 : r = r' := by rw [hft] at h6; cases h6; rfl
              subst h9
              rw [h7, h8, hdk']
              have hraised := @IncE.raised σ κ C (D w) (rank * n + w) (2 * n) (seg w).upto (seg' w).upto (seg w).state (seg w).since (us w) (cs w) (cfg w) ((List.range k).map (g w)) (S w k) r x
                hi (hcfg w hw).1 (hcfg w hw).2 ho (by simp; omega) he (by
                  intro hnil
                  have := congrArg List.length hnil
                  simp at this
                  omega) (by
                  rw [List.length_map, List.length_range, ← hdk']
                  rw [hdk'] at hx ⊢
                  exact hx)
              simpa using hraised
            · exact absurd ⟨by omega, e, by rw [hdk']; exact hft⟩ (h5 r)
        · have hle : ∀ k r e, ft w = some (k, r, e) → answered n off s w ≤ k := by
            intro k r e hft
            by_contra hlt
            exact hr ⟨k, r, e, hft, by omega⟩
          have hseg' : seg' w = seg w := by
            rcases hseg w hw with ⟨r', ⟨h5, e', h6⟩, -⟩ | ⟨-, h5⟩
            · exact absurd ⟨_, _, _, h6, h5⟩ hr
            · exact h5
          have hx' : getCheckpoint (S w (answered n off s w)).2 (cs w + deliveredE s w - 1) = some x := by
            rw [← hx]
            dsimp only
            unfold attrs
            split
            · rfl
            · rename_i k r e hft
              rw [if_pos (hle k r e hft)]
          rw [hseg']
          have h5 := h4 hle
          exact .restored (xs := (List.range (answered n off s w)).map (g w)) hi (hcfg w hw).1 (hcfg w hw).2 (hl.outs hw _ hle) (by simp; omega) (by omega) (by simp; omega) (by simp; omega) hx'
    · cases hsave

/-! ### The property for the loader -/

/-- **C119, the loader.** After any number of saves, restores and exceptions in any of the workers, with arbitrary schedules and timers, a loader delivers from each worker exactly the samples that follow the ones already delivered, in
the run of its dataset from the state in which its last exception has left it (`seg`), numbered on; exceptions of other workers change nothing. The order in which the workers take turns is C116 and C36. Missing: saves before every
worker has delivered a sample in this process (false: `C119_violated_first`). -/
theorem C119_loader_partial {n rank : Nat} (hn : 0 < n) {D : Nat → Dataset σ (Smp C) κ} {seg : Nat → Seg σ} {us : Nat → σ × WAttr κ} {cs : Nat → Nat} {off : Nat}
    (h : LIncE (E := E) n rank D seg us cs off) {cfg : Nat → Cfg} (hcfg : ∀ w < n, 2 ≤ (cfg w).keep ∧ 2 * n ≤ (cfg w).minN) {ft : Nat → Fate σ E}
    {S : Nat → Nat → σ × WAttr κ} {g : Nat → Nat → Nat × Smp C} {s : Sys (Except E (Got C))} (hl : LifeE n rank D us off cfg ft S g s) {w : Nat} (hw : w < n)
    (hD : ({ D w with init := (seg w).state } : Dataset σ (Smp C) κ).ResumesExactly) {st : Nat → σ} {f : Nat → Smp C} (h0 : st (seg w).since = (seg w).state) (hc : (seg w).since ≤ (seg w).upto)
    (hr : ∀ j, (seg w).since ≤ j → j < (seg w).upto → Obs (D w).step (st j) (.item (f j) (st (j + 1)))) (hN : cs w + deliveredE s w ≤ (seg w).upto) :
    (gotE s).filter (fun x => x.worker = w) = (List.range (deliveredE s w)).map fun i => ⟨w, cs w + i, (f (cs w + i)).addKey (loaderKey (rank * n + w) (cs w + i))⟩ := by
  obtain ⟨hoff, hi⟩ := h.inc hn
  obtain ⟨h1, -, h3, -⟩ := hl.facts hoff hw
  have hb := (hi w hw).begin hD h0 hc ⟨hr⟩
  obtain ⟨h5, -⟩ := During.outs (M := 2 * n) hD ⟨hr⟩ (hcfg w hw).1 (hcfg w hw).2 hb ((hl.outs hw (deliveredE s w) h3).from (seg w).state) (by simpa using hN)
  rw [h1]
  apply List.map_congr_left
  intro i hi
  have h6 := congrArg (fun l => l[i]?) h5
  have hi' := List.mem_range.1 hi
  simp [hi'] at h6
  rw [h6]

/-- **C119, the state can be saved** at any time after every worker has delivered a sample, if of the workers that have raised all samples before have been delivered (else: `C119_violated_save`). -/
theorem C119_loader_saved_partial {n rank : Nat} (hn : 0 < n) {D : Nat → Dataset σ (Smp C) κ} {seg : Nat → Seg σ} {us : Nat → σ × WAttr κ} {cs : Nat → Nat} {off : Nat}
    (h : LIncE (E := E) n rank D seg us cs off) {cfg : Nat → Cfg} (hcfg : ∀ w < n, 2 ≤ (cfg w).keep ∧ 2 * n ≤ (cfg w).minN) {ft : Nat → Fate σ E}
    {S : Nat → Nat → σ × WAttr κ} {g : Nat → Nat → Nat × Smp C} {s : Sys (Except E (Got C))} (hl : LifeE n rank D us off cfg ft S g s) (hpos : ∀ w < n, 0 < deliveredE s w)
    (hD : ∀ w < n, ({ D w with init := (seg w).state } : Dataset σ (Smp C) κ).ResumesExactly)
    (hr : ∀ w < n, ∃ (st : Nat → σ) (f : Nat → Smp C), st (seg w).since = (seg w).state ∧ (seg w).since ≤ (seg w).upto ∧
      ∀ j, (seg w).since ≤ j → j < (seg w).upto → Obs (D w).step (st j) (.item (f j) (st (j + 1)))) (hN : ∀ w < n, cs w + answered n off s w ≤ (seg w).upto)
    (hraised : ∀ w < n, ∀ k r, Raised (ft w) (answered n off s w) k r → deliveredE s w = k) :
    ∃ k, saveLoader n (fun w => attrs (D w) (cfg w) (ft w) (S w) (answered n off s w)) (gotE s) = some k ∧
      ∀ w < n, (k.workers w).idx + (k.workers w).offset = cs w + deliveredE s w ∧
        ∀ r, Raised (ft w) (answered n off s w) (deliveredE s w) r → k.workers w = ⟨some ((D w).save r), cs w + deliveredE s w, 0⟩ := by
  obtain ⟨hoff, hinc⟩ := h.inc hn
  have key : ∀ w < n, ∃ x, getCheckpoint (attrs (D w) (cfg w) (ft w) (S w) (answered n off s w)) (counter (gotE s) w) = some x ∧ x.idx + x.offset = cs w + deliveredE s w ∧
      ∀ r, Raised (ft w) (answered n off s w) (deliveredE s w) r → x = ⟨some ((D w).save r), cs w + deliveredE s w, 0⟩ := by
    intro w hw
    have hi := hinc w hw
    obtain ⟨h1, h2, h3, h4⟩ := hl.facts hoff hw
    have hp := hpos w hw
    have hcount : counter (gotE s) w = cs w + deliveredE s w - 1 := by
      unfold counter
      rw [h1]
      obtain ⟨d, hd⟩ := Nat.exists_eq_succ_of_ne_zero (by omega : deliveredE s w ≠ 0)
      have := hl.index hw hi.total.1 d (fun k r e hf => by have := h3 k r e hf; omega)
      rw [hd, List.range_succ, List.map_append]
      simp [this]
    rw [hcount]
    by_cases hra : ∃ k r e, ft w = some (k, r, e) ∧ k < answered n off s w
    · obtain ⟨k, r, e, hft, hk⟩ := hra
      have hd := hraised w hw k r ⟨hk, e, hft⟩
      have ho := hl.outs hw k (fun k' r' e' hf => by rw [hft] at hf; cases hf; exact Nat.le_refl _)
      have h5 := C119_saved_partial hi (hcfg w hw).1 ho (by
        intro hnil
        have := congrArg List.length hnil
        simp at this
        omega) r
      simp only [List.length_map, List.length_range] at h5
      refine ⟨⟨some ((D w).save r), cs w + k, 0⟩, ?_, by simp only; omega, ?_⟩
      · rw [hft, hd]
        simp only [attrs, if_neg (Nat.not_le.2 hk)]
        exact h5
      · rintro r' ⟨-, e', h6⟩
        rw [hft] at h6
        cases h6
        rw [hd]
    · have hle : ∀ k r e, ft w = some (k, r, e) → answered n off s w ≤ k := by
        intro k r e hft
        by_contra hlt
        exact hra ⟨k, r, e, hft, by omega⟩
      obtain ⟨st, f, h5, h6, h7⟩ := hr w hw
      have h8 := h4 hle
      have hNw := hN w hw
      obtain ⟨x, hx, hx2⟩ := C119_available_partial hi (hD w hw) h5 h6 h7 (hcfg w hw).1 (hcfg w hw).2 (hl.outs hw (answered n off s w) hle) (by simpa using hNw) (c' := cs w + deliveredE s w)
        (by omega) (by simp; omega) (by simp; omega)
      refine ⟨x, ?_, hx2, fun r hr => absurd ⟨_, r, hr.2.choose, hr.2.choose_spec, hr.1⟩ hra⟩
      rw [← hx]
      unfold attrs
      split
      · rfl
      · rename_i k r e hft
        rw [if_pos (hle k r e hft)]
  unfold saveLoader
  rw [if_pos]
  · refine ⟨_, rfl, fun w hw => ?_⟩
    obtain ⟨x, h1, h2, h3⟩ := key w hw
    simp only [h1, Option.getD_some]
    exact ⟨h2, h3⟩
  · rw [List.all_eq_true]
    intro w hw
    obtain ⟨x, h1, -⟩ := key w (List.mem_range.1 hw)
    rw [h1]
    rfl

/-! ### An example, and an exception nobody sees -/

/-- Never raises. -/
def endlessD : Dataset Nat (Smp Nat) Nat :=
  { init := 0, step := fun i => .yield ⟨i, [.num i]⟩ (i + 1), save := id, resume := id, reset := fun _ => 0, restoreSample := fun _ => none, hasSamples := true }

/-- Worker 0 raises after three samples (`failD`), worker 1 never. -/
def exE (w : Nat) : Dataset Nat (Smp Nat) Nat := if w = 0 then failD else endlessD

/-- Four samples between checkpoints, two checkpoints, no timer -/
def exEcfg : Nat → Cfg := fun _ => ⟨4, 2, fun _ => false⟩

def exEfate : Nat → Fate Nat Nat := fun w => if w = 0 then some (3, 4, 7) else none

def exEg (w i : Nat) : Nat × Smp Nat := (i, ⟨i, loaderKey w i ++ [.num i]⟩)

def exES (_ i : Nat) : Nat × WAttr Nat := if i = 0 then (0, ⟨0, 0, [⟨none, 0⟩], .fresh⟩) else (i, ⟨i, 0, [⟨none, 0⟩, ⟨some 1, 1⟩], .run false true⟩)

/-- Three samples of each worker have been delivered; worker 0 has raised, and its exception is in the queue. -/
def exEsys : Sys (Except Nat (Got Nat)) := ticks 2 (fun p => life (rawOf (exEfate (logical 2 0 p)) (logical 2 0 p) (exEg (logical 2 0 p)))) 23

theorem exE_answer (w i : Nat) (hi : w = 0 → i < 3) : Obs (wstep (exE w) (exEcfg w) (0 * 2 + w)) (exES w i) (.item (exEg w i) (exES w (i + 1))) := by
  have hstep : (exE w).step i = .yield ⟨i, [.num i]⟩ (i + 1) := by
    by_cases hw : w = 0
    · rw [exE, if_pos hw]
      show (if i = 3 then Stream.Step.raise else _) = _
      rw [if_neg (by have := hi hw; omega)]
    · rw [exE, if_neg hw]; rfl
  have hsave : (exE w).save = id := by unfold exE; split <;> rfl
  cases i with
  | zero =>
    refine .skip rfl (.item ?_)
    simp only [wstep, exES, if_true, hstep, hsave, Nat.zero_mul, Nat.zero_add]
    rfl
  | succ i =>
    refine .item ?_
    have e : store (exEcfg w) false (i + 1 + 1) ⟨i + 1 + 1, 0, [⟨none, 0⟩, ⟨some 1, 1⟩], .run false true⟩ = (⟨i + 1 + 1, 0, [⟨none, 0⟩, ⟨some 1, 1⟩], .run false true⟩ : WAttr Nat) := by
      simp [store, exEcfg]
    simp only [wstep, exES, Nat.succ_ne_zero, if_false, hstep, hsave, Nat.zero_mul, Nat.zero_add, id, Nat.lt_irrefl]
    rw [e]
    rfl

theorem exE_life : LifeE 2 0 exE (fun w => wfresh (exE w)) 0 exEcfg exEfate exES exEg exEsys where
  start w _ := by
    have : (exE w).init = 0 := by unfold exE; split <;> rfl
    simp only [exES, if_true, wfresh, this]
  answer w _ i hi := exE_answer w i fun hw => hi 3 4 7 (by rw [exEfate, if_pos hw])
  raises w _ k r e h := by
    unfold exEfate at h
    split at h
    · rename_i hw
      cases h
      subst hw
      exact .err rfl
    · cases h
  reach := ticks_reach 23

theorem exE_numbers : deliveredE exEsys 0 = 3 ∧ deliveredE exEsys 1 = 3 ∧ answered 2 0 exEsys 0 = 5 ∧ answered 2 0 exEsys 1 = 4 ∧ (exEsys.hist.all fun x => x.2.isOk) = true ∧ exEsys.phase = .idle := by
  decide +kernel

/-- **C119 is violated** without a word: the exception is in the queue, and all samples before it have been delivered when the user saves. The restored worker goes on behind the sample that failed: the user has never seen
the exception, and never will. -/
theorem C119_violated_silent : ∃ (k : LState Nat) (seg : Nat → Seg Nat), saveLoader 2 (fun w => attrs (exE w) (exEcfg w) (exEfate w) (exES w) (answered 2 0 exEsys w)) (gotE exEsys) = some k ∧
    LIncE (E := Nat) 2 0 exE seg (fun w => wresume (exE w) (k.workers w)) (fun w => 0 + deliveredE exEsys w) k.next ∧ (∀ x ∈ exEsys.hist, ∀ e, x.2 ≠ .error e) ∧
    (seg 0).state = 4 ∧ (seg 0).since = 3 ∧ ∃ q, Obs (wstep (exE 0) (exEcfg 0) 0) (wresume (exE 0) (k.workers 0)) (.item (3, ⟨4, loaderKey 0 3 ++ [.num 4]⟩) q) := by
  obtain ⟨n1, n2, n3, n4, n5, n6⟩ := exE_numbers
  have hpos : ∀ w < 2, 0 < deliveredE exEsys w := by
    intro w hw
    match w, hw with
    | 0, _ => rw [n1]; decide
    | 1, _ => rw [n2]; decide
  have hcfg : ∀ w < 2, 2 ≤ (exEcfg w).keep ∧ 2 * 2 ≤ (exEcfg w).minN := fun _ _ => ⟨Nat.le_refl _, Nat.le_refl _⟩
  have hc0 : counter (gotE exEsys) 0 = 2 ∧ counter (gotE exEsys) 1 = 2 := by decide +kernel
  have h0 : getCheckpoint (attrs (exE 0) (exEcfg 0) (exEfate 0) (exES 0) (answered 2 0 exEsys 0)) (counter (gotE exEsys) 0) = some ⟨some 4, 3, 0⟩ := by rw [n3, hc0.1]; rfl
  have h1 : getCheckpoint (attrs (exE 1) (exEcfg 1) (exEfate 1) (exES 1) (answered 2 0 exEsys 1)) (counter (gotE exEsys) 1) = some ⟨some 1, 1, 2⟩ := by rw [n4, hc0.2]; rfl
  have hall : (List.range 2).all (fun w => (getCheckpoint (attrs (exE w) (exEcfg w) (exEfate w) (exES w) (answered 2 0 exEsys w)) (counter (gotE exEsys) w)).isSome) = true := by
    rw [show List.range 2 = [0, 1] from rfl]
    simp only [List.all_cons, List.all_nil, h0, h1]
    rfl
  have hk : saveLoader 2 (fun w => attrs (exE w) (exEcfg w) (exEfate w) (exES w) (answered 2 0 exEsys w)) (gotE exEsys) =
      some ⟨fun w => (getCheckpoint (attrs (exE w) (exEcfg w) (exEfate w) (exES w) (answered 2 0 exEsys w)) (counter (gotE exEsys) w)).getD ⟨none, 0, 0⟩, nextWorker 2 (gotE exEsys)⟩ := by
    unfold saveLoader
    exact if_pos hall
  refine ⟨_, fun w => if w = 0 then ⟨4, 3, 9⟩ else ⟨0, 0, 9⟩, hk, ?_, ?_, rfl, rfl, ?_⟩
  · refine LIncE.restored (seg := fun w => ⟨(exE w).init, 0, 9⟩) (E := Nat) (ft := exEfate) (.new (N := fun _ => 9)) hcfg exE_life n6 hpos ?_ hk ?_
    · intro w hw
      match w, hw with
      | 0, _ => rw [n3]; decide
      | 1, _ => rw [n4]; decide
    · intro w hw
      match w, hw with
      | 0, _ => exact .inl ⟨4, ⟨by rw [n1, n3]; decide, 7, by rw [n1]; rfl⟩, rfl, by simp only [n1]; rfl⟩
      | 1, _ => exact .inr ⟨(fun r ⟨_, e, h⟩ => by cases h), rfl⟩
  · intro x hx e he
    have := List.all_eq_true.1 n5 x hx
    rw [he] at this
    cases this
  · dsimp only
    rw [h0]
    exact ⟨_, .skip rfl (.item rfl)⟩

/-- The hypotheses of the theorems are met by what follows: the restored loader, here still without an answer. -/
example : ∃ (seg : Nat → Seg Nat) (us : Nat → Nat × WAttr Nat) (cs : Nat → Nat) (off : Nat), LIncE (E := Nat) 2 0 exE seg us cs off ∧ cs 0 = 3 ∧ (seg 0).since = 3 ∧
    ({ exE 0 with init := (seg 0).state } : Dataset Nat (Smp Nat) Nat).ResumesExactly ∧ ∀ j, 3 ≤ j → j < (seg 0).upto → Obs (exE 0).step (j + 1) (.item ⟨j + 1, [.num (j + 1)]⟩ (j + 2)) := by
  obtain ⟨k, seg, -, h1, -, h2, h3, -⟩ := C119_violated_silent
  refine ⟨seg, _, _, _, h1, by rw [exE_numbers.1], h3, fun _ _ => Dataset.Equiv.refl _, fun j hj _ => .item ?_⟩
  show (if j + 1 = 3 then Stream.Step.raise else _) = _
  rw [if_neg (by omega)]

/-- The state of the example can be saved by the theorem, too. -/
example : ∃ k, saveLoader 2 (fun w => attrs (exE w) (exEcfg w) (exEfate w) (exES w) (answered 2 0 exEsys w)) (gotE exEsys) = some k :=
  let ⟨k, _, h, _⟩ := C119_violated_silent
  ⟨k, h⟩

end Verif.Loader
