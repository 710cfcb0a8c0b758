import Verif.Ranks.Model
import Verif.Stream.History
import Verif.Stream.Example
import Mathlib.Data.List.Nodup

/-! # C81: checkpoints of a distributed job -/

namespace Verif.Ranks

open Verif.Stream

variable {K σ α : Type}

/-! ## Lemmas -/

theorem allSome_map {A B : Type} (f : A → B) (l : List A) : allSome (l.map fun a => some (f a)) = some (l.map f) := by
  induction l with
  | nil => rfl
  | cons a l ih => simp only [List.map_cons, allSome, ih, Option.map_some]

theorem allSome_none {A : Type} {l : List (Option A)} (h : none ∈ l) : allSome l = none := by
  induction l with
  | nil => cases h
  | cons a l ih =>
    cases a with
    | none => rfl
    | some a =>
      simp only [List.mem_cons, reduceCtorEq, false_or] at h
      simp only [allSome, ih h, Option.map_none]

theorem getElem?_range_map {A : Type} (f : Nat → A) {n i : Nat} (h : i < n) : ((List.range n).map f)[i]? = some (f i) := by
  simp [h]

theorem zip_range_map {A : Type} (ms : List Nat) (f : Nat → A) :
    ms.zip ((List.range ms.length).map f) = (List.range ms.length).map fun j => (ms.getD j 0, f j) := by
  apply List.ext_getElem
  · simp
  · intro i h1 h2
    simp only [List.length_zip, List.length_map, List.length_range, Nat.min_self] at h1
    simp [h1]

/-! ## Saving -/

/-- **C81** Without `dst_rank` every rank gets the list of the states of all ranks, in the order of the ranks. -/
theorem C81_gathered (members : List Nat) (workers : Bool) (D : Nat → Dataset σ α K) (rs : Nat → Rank σ) {i : Nat} (hi : i < members.length) :
    saveAll members true workers D rs none i = .ret (.list ((List.range members.length).map fun j => saveRank workers (D j) (rs j))) := by
  unfold saveAll exchange
  rw [getElem?_range_map _ hi]
  simp only [saveCall, if_true, List.map_map, Function.comp_def, Call.inAllGather]
  rw [allSome_map]

/-- **C81** With `dst_rank` this rank gets the list and the others get `None` — in a job in which the data parallel rank and the global rank of that
process are the same number. -/
theorem C81_gathered_at_partial (members : List Nat) (hnd : members.Nodup) (workers : Bool) (D : Nat → Dataset σ α K) (rs : Nat → Rank σ) {r : Nat}
    (hr : members[r]? = some r) {i : Nat} (hi : i < members.length) :
    saveAll members true workers D rs (some r) i =
      .ret (if i = r then .list ((List.range members.length).map fun j => saveRank workers (D j) (rs j)) else .none) := by
  obtain ⟨hrl, hrr⟩ := List.getElem?_eq_some_iff.1 hr
  have key : ∀ j (hj : j < members.length), members[j] = r ↔ j = r := by
    intro j hj
    constructor
    · intro h
      exact (List.Nodup.getElem_inj_iff hnd).1 (h.trans hrr.symm)
    · rintro rfl
      exact hrr
  unfold saveAll exchange
  rw [getElem?_range_map _ hi, List.getElem?_eq_getElem hi]
  simp only [saveCall, if_true]
  rw [if_neg (not_not.2 (List.mem_of_getElem? hr)), if_neg (by simp [key i hi])]
  rw [zip_range_map, List.map_map]
  have e : (List.range members.length).map ((fun q : Nat × Call K => q.2.inGather q.1 r) ∘ fun j =>
      (members.getD j 0, Call.gather (saveRank workers (D j) (rs j)) (decide (j = r)) r)) =
      (List.range members.length).map fun j => some (saveRank workers (D j) (rs j)) := by
    apply List.map_congr_left
    intro j hj
    have hj := List.mem_range.1 hj
    simp only [Function.comp_def, Call.inGather, List.getD_eq_getElem?_getD, List.getElem?_eq_getElem hj, Option.getD_some, key j hj,
      true_and, if_true]
  rw [e, allSome_map]
  simp only [key i hi]

/-- **C81** is violated in every job whose data parallel group numbers the processes differently: if the data parallel rank `r` is not the
process with the global rank `r`, then `save_state(dst_rank=r)` raises an exception on rank `r`, and no rank ever gets the states. -/
theorem C81_violated_group (members : List Nat) (workers : Bool) (D : Nat → Dataset σ α K) (rs : Nat → Rank σ) {r g : Nat}
    (hr : members[r]? = some g) (hg : g ≠ r) :
    saveAll members true workers D rs (some r) r = .raise ∧
      ∀ i < members.length, saveAll members true workers D rs (some r) i = .raise ∨ saveAll members true workers D rs (some r) i = .hang := by
  obtain ⟨hrl, hrr⟩ := List.getElem?_eq_some_iff.1 hr
  refine ⟨?_, ?_⟩
  · unfold saveAll exchange
    rw [getElem?_range_map _ hrl, hr]
    simp only [saveCall, if_true]
    by_cases hm : r ∈ members
    · rw [if_neg (not_not.2 hm), if_pos (by simp [hg])]
    · rw [if_pos hm]
  · intro i hi
    unfold saveAll exchange
    rw [getElem?_range_map _ hi, List.getElem?_eq_getElem hi]
    simp only [saveCall, if_true]
    split
    · exact .inl rfl
    · split
      · exact .inl rfl
      · rw [zip_range_map, List.map_map, allSome_none]
        · exact .inr rfl
        · rw [List.mem_map]
          refine ⟨r, List.mem_range.2 hrl, ?_⟩
          simp [Call.inGather, hr, hg]

/-! ## Restoring -/

/-- **C81** Without `src_rank`, when every rank passes the list of all states, every rank is restored from its own. -/
theorem C81_scattered (members : List Nat) (D : Nat → Dataset σ α K) (xs : List (Option K)) (hl : xs.length = members.length) {i : Nat}
    (hi : i < members.length) :
    restoreAll members true D (fun _ => .list xs) none i = restoreRank (D i) (pyOf (xs.getD i none)) := by
  unfold restoreAll exchange
  rw [getElem?_range_map _ hi]
  have : xs[i]? = some xs[i] := List.getElem?_eq_getElem (hl ▸ hi)
  simp only [restoreCall, List.getD_eq_getElem?_getD, this, Option.getD_some]

/-- **C81** `src_rank` as documented ("only this rank is assumed to hold the data, other ranks must set state to None") never works with two
or more ranks: the rank with the states waits for ever, and every other rank silently keeps the initial state. -/
theorem C81_violated_src (members : List Nat) (D : Nat → Dataset σ α K) (xs : List (Option K)) {r : Nat}
    (hr : members[r]? = some r) (h2 : 2 ≤ members.length) :
    restoreAll members true D (fun i => if i = r then .list xs else .none) (some r) r = .hang ∧
      ∀ i < members.length, i ≠ r →
        restoreAll members true D (fun i => if i = r then .list xs else .none) (some r) i = .ret (newRank (D i)) := by
  obtain ⟨hrl, hrr⟩ := List.getElem?_eq_some_iff.1 hr
  refine ⟨?_, ?_⟩
  · have : ∃ j < members.length, j ≠ r := by
      by_cases h0 : r = 0
      · exact ⟨1, by omega, by omega⟩
      · exact ⟨0, by omega, fun h => h0 h.symm⟩
    obtain ⟨j, hj, hjr⟩ := this
    unfold restoreAll exchange
    rw [getElem?_range_map _ hrl, hr]
    simp only [restoreCall, if_true, ne_eq, not_true, if_false]
    have hmem : r ∈ members := List.mem_of_getElem? hr
    cases hx : members.idxOf? r with
    | none => exact absurd hmem (by simpa [List.idxOf?_eq_none_iff] using hx)
    | some k =>
      simp only []
      rw [allSome_none]
      rw [List.map_map, List.mem_map]
      refine ⟨j, List.mem_range.2 hj, ?_⟩
      simp [restoreCall, hjr, Call.inScatter]
  · intro i hi hir
    unfold restoreAll exchange
    rw [getElem?_range_map _ hi]
    simp only [restoreCall, hir, if_false]
    rfl

/-- … and if the other ranks pass the list, too, they all raise an exception. -/
theorem C81_violated_src_list (members : List Nat) (D : Nat → Dataset σ α K) (xs : List (Option K)) {r i : Nat} (hi : i < members.length)
    (hir : i ≠ r) : restoreAll members true D (fun _ => .list xs) (some r) i = .raise := by
  unfold restoreAll exchange
  rw [getElem?_range_map _ hi]
  simp only [restoreCall, ne_eq, hir, not_false_eq_true, if_true]

/-- **C81** With a single rank `src_rank` works: the one state is restored; a list of any other length is refused. -/
theorem C81_src_single (g : Nat) (D : Nat → Dataset σ α K) (xs : List (Option K)) :
    restoreAll [0] true D (fun _ => .list xs) (some 0) 0 = (if xs.length = 1 then restoreRank (D 0) (pyOf (xs.getD 0 none)) else .raise) ∧
      (g ≠ 0 → restoreAll [g] true D (fun _ => .list xs) (some 0) 0 = .raise) := by
  refine ⟨?_, fun hg => ?_⟩
  · by_cases h : xs.length = 1
    · rw [if_pos h]
      simp [restoreAll, restoreCall, exchange, allSome, Call.inScatter, List.idxOf?, List.findIdx?, List.findIdx?.go, h]
    · rw [if_neg h]
      simp [restoreAll, restoreCall, exchange, allSome, Call.inScatter, List.idxOf?, List.findIdx?, List.findIdx?.go, h]
  · simp [restoreAll, restoreCall, exchange, List.idxOf?, List.findIdx?, List.findIdx?.go, hg]

/-! ## Restarting a job -/

/-- **C81** A job is stopped and started again: all ranks save, the list of one rank is kept and given to all ranks. Then every rank continues from
the state its own dataset has saved. (Partial: with worker processes, the loader must have been iterated since it was created or restored.) -/
theorem C81_restart_partial (members : List Nat) (workers : Bool) (D : Nat → Dataset σ α K) (rs : Nat → Rank σ)
    (hs : ∀ i < members.length, workers = true → (rs i).started = true) {holder i : Nat} (hh : holder < members.length) (hi : i < members.length) :
    ∃ l, saveAll members true workers D rs none holder = .ret (.list l) ∧
      restoreAll members true D (fun _ => .list l) none i = .ret ⟨(D i).resume ((D i).save (rs i).s), false⟩ := by
  refine ⟨_, C81_gathered members workers D rs hh, ?_⟩
  rw [C81_scattered members D _ (by simp) hi, List.getD_eq_getElem?_getD, getElem?_range_map _ hi, Option.getD_some]
  unfold saveRank
  cases hw : workers with
  | false => rfl
  | true => rw [hs i hi hw]; rfl

/-- **C81** One process without `torch.distributed` -/
theorem C81_single_partial (workers : Bool) (D : Nat → Dataset σ α K) (rs : Nat → Rank σ) (hs : workers = true → (rs 0).started = true)
    (dst src : Option Nat) :
    ∃ st, saveAll [0] false workers D rs dst 0 = .ret st ∧
      restoreAll [0] false D (fun _ => st) src 0 = .ret ⟨(D 0).resume ((D 0).save (rs 0).s), false⟩ := by
  refine ⟨pyOf (saveRank workers (D 0) (rs 0)), rfl, ?_⟩
  unfold saveRank
  cases hw : workers with
  | false => rfl
  | true => rw [hs hw]; rfl

/-- A state saved by a distributed job is refused by a process without `torch.distributed` (and not taken for an initial state). -/
theorem C81_list_refused (D : Nat → Dataset σ α K) (l : List (Option K)) (src : Option Nat) :
    restoreAll [0] false D (fun _ => .list l) src 0 = .raise := rfl

/-- `f` with the value at `i` replaced -/
def put {A : Type} (f : Nat → A) (i : Nat) (a : A) (j : Nat) : A := if j = i then a else f j

/-- What has been delivered on each rank in the whole life of a distributed job (`evs i` on rank `i`), and its present loaders: the ranks draw samples independently; at any time
the job may be saved on all ranks, stopped and restored from the list that one of the ranks got. -/
inductive Job (members : List Nat) (workers : Bool) (D : Nat → Dataset σ α K) : (Nat → List (Ev α)) → (Nat → Rank σ) → Prop where
  | init : Job members workers D (fun _ => []) (fun i => newRank (D i))
  | item {evs rs i a s'} : Job members workers D evs rs → i < members.length → Obs (D i).step (rs i).s (.item a s') →
      Job members workers D (put evs i (evs i ++ [.item a])) (put rs i ⟨s', true⟩)
  | fin {evs rs i s'} : Job members workers D evs rs → i < members.length → Obs (D i).step (rs i).s (.fin s') →
      Job members workers D (put evs i (evs i ++ [.fin])) (put rs i ⟨s', true⟩)
  | restart {evs rs rs' holder l} : Job members workers D evs rs → (∀ i < members.length, workers = true → (rs i).started = true) →
      holder < members.length → saveAll members true workers D rs none holder = .ret (.list l) →
      (∀ i < members.length, restoreAll members true D (fun _ => .list l) none i = .ret (rs' i)) → Job members workers D evs rs'

theorem Job.history {members : List Nat} {workers : Bool} {D : Nat → Dataset σ α K} {evs : Nat → List (Ev α)} {rs : Nat → Rank σ}
    (h : Job members workers D evs rs) {i : Nat} (hi : i < members.length) : (D i).History (evs i) (rs i).s := by
  induction h with
  | init => exact .init
  | @item evs rs j a s' _ hj ho ih =>
    by_cases e : i = j
    · subst e
      simp only [put, if_true]
      exact .item ih ho
    · simp only [put, if_neg e]
      exact ih
  | @fin evs rs j s' _ hj ho ih =>
    by_cases e : i = j
    · subst e
      simp only [put, if_true]
      exact .fin ih ho
    · simp only [put, if_neg e]
      exact ih
  | @restart evs rs rs' holder l _ hs hh hsave hrest ih =>
    obtain ⟨l', h1, h2⟩ := C81_restart_partial members workers D rs hs hh hi
    rw [hsave] at h1
    cases h1
    rw [hrest i hi, Res.ret.injEq] at h2
    rw [h2]
    exact .resume ih

/-- **C81** Interrupting a distributed job, any number of times and wherever the ranks are, changes nothing for any rank: if the loaders of the ranks
resume exactly, then each rank has seen what it would have seen in one uninterrupted run, and will go on like it. -/
theorem C81_job_partial {members : List Nat} {workers : Bool} {D : Nat → Dataset σ α K} (hD : ∀ i < members.length, (D i).ResumesExactly)
    {evs : Nat → List (Ev α)} {rs : Nat → Rank σ} (h : Job members workers D evs rs) {i : Nat} (hi : i < members.length) :
    ∃ t, (D i).Run (D i).init (evs i) t ∧ (D i).Equiv t (rs i).s :=
  (h.history hi).run (hD i hi)

/-- A restart is always possible. -/
theorem Job.can_restart {members : List Nat} {workers : Bool} {D : Nat → Dataset σ α K} {evs : Nat → List (Ev α)} {rs : Nat → Rank σ}
    (h : Job members workers D evs rs) (hs : ∀ i < members.length, workers = true → (rs i).started = true) (hn : 0 < members.length) :
    ∃ rs', Job members workers D evs rs' ∧ ∀ i < members.length, (rs' i).started = false := by
  refine ⟨fun i => ⟨(D i).resume ((D i).save (rs i).s), false⟩, .restart h hs hn (C81_gathered members workers D rs hn) ?_, fun _ _ => rfl⟩
  intro i hi
  obtain ⟨l, h1, h2⟩ := C81_restart_partial members workers D rs hs hn hi
  rw [C81_gathered members workers D rs hn] at h1
  cases h1
  exact h2

/-! ## Violations and examples -/

/-- **C81** is violated by a loader with worker processes that is saved after being restored, before its first sample: what it saves is "initial state". After two
samples (0 and 1) and a restart, a second restart begins with sample 0 again. -/
theorem C81_violated_saved_again :
    let D : Nat → Dataset _ (Smp Nat) _ := fun _ => streamD id
    ∃ r : Rank _, restoreAll [0] true D (fun _ => .list [saveRank true (D 0) ⟨2, true⟩]) none 0 = .ret r ∧
      (D 0).Equiv 2 r.s ∧ saveRank true (D 0) r = none ∧
      ∃ r', restoreAll [0] true D (fun _ => .list [saveRank true (D 0) r]) none 0 = .ret r' ∧ ¬ (D 0).Equiv 2 r'.s := by
  intro D
  refine ⟨⟨(D 0).resume ((D 0).save 2), false⟩, rfl, ?_, rfl, newRank (D 0), rfl, ?_⟩
  · exact (streamD_resumes (C := Nat) id false) 2 (Dataset.after_paused (n := 10) (k := 2) (s := (0 : Nat)) rfl .init)
  · exact fun h => Dataset.not_equiv 3 1 (by decide +kernel) (by decide +kernel) h

/-- Two ranks; rank 0 draws two samples, rank 1 one; restart; rank 1 draws its next sample: the numbers go on. -/
example : ∃ rs, Job [0, 1] true (fun i => streamD (fun n => 10 * i + n))
    (fun i => if i = 0 then [.item ⟨0, [.num 0]⟩, .item ⟨1, [.num 1]⟩] else if i = 1 then [.item ⟨10, [.num 0]⟩, .item ⟨11, [.num 1]⟩] else []) rs := by
  have j0 : Job [0, 1] true (fun i => streamD (fun n => 10 * i + n)) _ _ := .init
  have j1 := j0.item (i := 0) (by decide) (.item rfl)
  have j2 := j1.item (i := 0) (by decide) (.item rfl)
  have j3 := j2.item (i := 1) (by decide) (.item rfl)
  have j4 := j3.restart (rs' := fun i => ⟨if i = 0 then 2 else if i = 1 then 1 else 0, false⟩) (holder := 1)
    (fun i hi _ => match i, hi with | 0, _ => rfl | 1, _ => rfl) (by decide) rfl (fun i hi => match i, hi with | 0, _ => rfl | 1, _ => rfl)
  have j5 := j4.item (i := 1) (by decide) (.item rfl)
  have e : ∀ {e1 e2 : Nat → List (Ev (Smp Nat))} {rs : Nat → Rank Nat}, Job [0, 1] true (fun i => streamD (fun n => 10 * i + n)) e1 rs → e2 = e1 →
      ∃ rs, Job [0, 1] true (fun i => streamD (fun n => 10 * i + n)) e2 rs := fun h he => ⟨_, he ▸ h⟩
  refine e j5 ?_
  funext i
  match i with
  | 0 => rfl
  | 1 => rfl
  | _ + 2 => rfl

end Verif.Ranks
