import Verif.Worker.Model

/-! # C07, C08, C09: worker ids and sample indices -/

namespace Verif.Worker

/-! ## C07 -/

/-- The indices two different workers of a rank show never coincide, whatever their local indices are; and the local index
can be read off. -/
theorem C07_indices_unique (c : Config) (w w' i i' : Nat) (hw : w < max c.numWorkers 1) (hw' : w' < max c.numWorkers 1)
    (h : exposedIndex c w i = exposedIndex c w' i') : w = w' ∧ i = i' := by
  unfold exposedIndex at h
  have h1 : (i * max c.numWorkers 1 + w) % max c.numWorkers 1 = w := by
    rw [Nat.mul_comm, Nat.mul_add_mod, Nat.mod_eq_of_lt hw]
  have h2 : (i' * max c.numWorkers 1 + w') % max c.numWorkers 1 = w' := by
    rw [Nat.mul_comm, Nat.mul_add_mod, Nat.mod_eq_of_lt hw']
  have : w = w' := by rw [← h1, ← h2, h]
  subst this
  refine ⟨rfl, ?_⟩
  have h3 : i * max c.numWorkers 1 = i' * max c.numWorkers 1 := by omega
  exact Nat.eq_of_mul_eq_mul_right (by omega) h3

/-- Inside one worker the shown index grows with the local one. -/
theorem C07_indices_increase (c : Config) (w i i' : Nat) (h : i < i') : exposedIndex c w i < exposedIndex c w i' := by
  unfold exposedIndex
  have := Nat.mul_lt_mul_of_pos_right h (k := max c.numWorkers 1) (by omega)
  omega

/-- The worker processes of a rank have different worker ids, below the number of workers, also with an offset. -/
theorem C07_worker_ids (c : Config) (hn : 0 < c.numWorkers) (off : Nat) (hoff : off < c.numWorkers) (id id' : Nat)
    (h : id < c.numWorkers) (h' : id' < c.numWorkers) :
    ∃ w w', rankWorkerId c ⟨some (id, c.numWorkers), off, none⟩ = some w ∧
      rankWorkerId c ⟨some (id', c.numWorkers), off, none⟩ = some w' ∧
      w < c.numWorkers ∧ w' < c.numWorkers ∧ (w = w' → id = id') := by
  refine ⟨(id + c.numWorkers - off) % c.numWorkers, (id' + c.numWorkers - off) % c.numWorkers,
    by simp only [rankWorkerId, if_true], by simp only [rankWorkerId, if_true], Nat.mod_lt _ hn,
    Nat.mod_lt _ hn, fun hw => ?_⟩
  have key : ∀ i < c.numWorkers, (i + c.numWorkers - off) % c.numWorkers =
      if off ≤ i then i - off else i + c.numWorkers - off := by
    intro i hi
    split
    · have : i + c.numWorkers - off = i - off + c.numWorkers := by omega
      rw [this, Nat.add_mod_right, Nat.mod_eq_of_lt (by omega)]
    · exact Nat.mod_eq_of_lt (by omega)
  rw [key id h, key id' h'] at hw
  split at hw <;> split at hw <;> omega

/-- Global worker ids are different for different workers of all ranks. -/
theorem C07_global_ids (n rank rank' w w' : Nat) (hw : w < n) (hw' : w' < n) (h : rank * n + w = rank' * n + w') :
    rank = rank' ∧ w = w' := by
  have h1 : (rank * n + w) / n = rank := by
    rw [Nat.mul_comm, Nat.mul_add_div (by omega), Nat.div_eq_of_lt hw, Nat.add_zero]
  have h2 : (rank' * n + w') / n = rank' := by
    rw [Nat.mul_comm, Nat.mul_add_div (by omega), Nat.div_eq_of_lt hw', Nat.add_zero]
  have : rank = rank' := by rw [← h1, ← h2, h]
  subst this
  exact ⟨rfl, by omega⟩

example : globalWorkerId ⟨2, 4, 3⟩ ⟨some (1, 3), 0, none⟩ = some 7 := by decide

/-- Without worker processes the ids of all ranks are different as well (each is its rank times 0 plus 0, but the seed uses
the rank: worker.py:216-218); with them, the id of `global_worker_id` is the one of the previous theorem. -/
theorem C07_global_worker_id (c : Config) (hn : 1 < c.numWorkers) (off id : Nat) :
    ∃ w, rankWorkerId c ⟨some (id, c.numWorkers), off, none⟩ = some w ∧ w < c.numWorkers ∧
      globalWorkerId c ⟨some (id, c.numWorkers), off, none⟩ = some (c.rank * c.numWorkers + w) := by
  refine ⟨(id + c.numWorkers - off) % c.numWorkers, by simp only [rankWorkerId, if_true], Nat.mod_lt _ (by omega), ?_⟩
  have : ¬ c.numWorkers ≤ 1 := by omega
  simp [globalWorkerId, assertWorker, rankWorkerId, this]

/-- Outside of the worker processes there is no such id if there are several of them: asking for it is an error, and so it is in a worker process of
a loader with another number of workers. -/
theorem C07_outside (c : Config) (hn : 1 < c.numWorkers) (off : Nat) :
    globalWorkerId c ⟨none, off, none⟩ = none ∧ ∀ id n, n ≠ c.numWorkers → globalWorkerId c ⟨some (id, n), off, none⟩ = none := by
  have : ¬ c.numWorkers ≤ 1 := by omega
  refine ⟨by simp [globalWorkerId, assertWorker, this], fun id n h => by simp [globalWorkerId, assertWorker, this, h]⟩

example : globalWorkerId ⟨2, 4, 3⟩ ⟨none, 0, none⟩ = none ∧ globalWorkerId ⟨2, 4, 3⟩ ⟨some (1, 2), 0, none⟩ = none := by decide

/-- Restoring a sample of the global worker 0 (`override` 0): the id is not taken from the override but from the process, i.e. 0
in the main process. For the other workers the id is the one the sample was made with. -/
theorem C07_override (c : Config) (hn : 0 < c.numWorkers) (w : Nat) (hw : w < c.numWorkers) :
    rankWorkerId c ⟨none, 0, some (c.rank * c.numWorkers + w)⟩ = some w := by
  cases hg : c.rank * c.numWorkers + w with
  | zero =>
    have : w = 0 := by omega
    subst this
    rfl
  | succ g =>
    simp only [rankWorkerId, true_and]
    rw [if_pos (by omega), ← hg, Nat.mul_comm, Nat.mul_add_mod, Nat.mod_eq_of_lt hw]

/-! ## C08

Specification: lexical scoping. `spec` passes the indices of the enclosing scopes down as an argument; there is no stack to
push to and to pop from. -/

/-- Outcome (does user code's exception leave the program?), what user code sees, and the counters afterwards. -/
def spec : Prog → List Nat → (Nat → Nat) → Bool × List (List Nat) × (Nat → Nat)
  | .look, enc, k => (false, [enc], k)
  | .raise, _, k => (true, [], k)
  | .seq p q, enc, k =>
    match spec p enc k with
    | (true, s, k') => (true, s, k')
    | (false, s, k') =>
      match spec q enc k' with
      | (b, s', k'') => (b, s ++ s', k'')
  | .fresh o p, enc, k => spec p (enc ++ [k o]) (fun o' => if o' = o then k o + 1 else k o')
  | .fixed i p, enc, k => spec p (enc ++ [i]) k
  | .attempt p q, enc, k =>
    match spec p enc k with
    | (false, s, k') => (false, s, k')
    | (true, s, k') =>
      match spec q enc k' with
      | (b, s', k'') => (b, s ++ s', k'')

/-- The exception the specification allows. -/
def excOf (b : Bool) : Option Exc := if b then some .user else none

private theorem run_spec (p : Prog) : ∀ (st : List Nat) (k : Nat → Nat),
    run p ⟨some st, k⟩ = ⟨excOf (spec p st k).1, (spec p st k).2.1, ⟨some st, (spec p st k).2.2⟩⟩ := by
  have hscope : ∀ (i : Nat) (p : Prog) (st : List Nat) (k : Nat → Nat),
      (∀ (st : List Nat) (k : Nat → Nat), run p ⟨some st, k⟩ =
        ⟨excOf (spec p st k).1, (spec p st k).2.1, ⟨some st, (spec p st k).2.2⟩⟩) →
      scope i (run p) ⟨some st, k⟩ = ⟨excOf (spec p (st ++ [i]) k).1, (spec p (st ++ [i]) k).2.1,
        ⟨some st, (spec p (st ++ [i]) k).2.2⟩⟩ := by
    intro i p st k ih
    simp only [scope, push, ih, pop, List.getLast?_append, List.getLast?_singleton, Option.some_or, if_true,
      List.dropLast_concat]
  induction p with
  | look => intro st k; rfl
  | raise => intro st k; rfl
  | seq p q ihp ihq =>
    intro st k
    simp only [run, ihp, spec]
    rcases h : spec p st k with ⟨b, s, k'⟩
    cases b with
    | true => rfl
    | false => simp only [excOf, Bool.false_eq_true, if_false, ihq]
  | fresh o p ih => intro st k; exact hscope _ p st _ ih
  | fixed i p ih => intro st k; exact hscope _ p st _ ih
  | attempt p q ihp ihq =>
    intro st k
    simp only [run, ihp, spec]
    rcases h : spec p st k with ⟨b, s, k'⟩
    cases b with
    | false => rfl
    | true => simp only [excOf, if_true, ihq]

/-- However scopes are nested, whatever user code raises and whatever is caught: no assertion fails, leaving a program leaves
the stack exactly as it was when entering it, and user code always sees exactly the indices of the scopes that
enclose it. -/
theorem C08_scopes_bracketed (p : Prog) (st : List Nat) (k : Nat → Nat) :
    (run p ⟨some st, k⟩).exc ≠ some .assertion ∧
    (run p ⟨some st, k⟩).glob.stack = some st ∧
    (run p ⟨some st, k⟩).seen = (spec p st k).2.1 := by
  rw [run_spec]
  refine ⟨?_, rfl, rfl⟩
  unfold excOf
  split <;> simp

/-- A whole `next` call of the loader: the activation assertions hold, and afterwards no worker is active again, so that the next
call can be made; the batch index (bottom of the stack) is the one of the loader. -/
theorem C08_next_call (p : Prog) (i : Nat) (k : Nat → Nat) :
    (nextCall i p ⟨none, k⟩).exc ≠ some .assertion ∧ (nextCall i p ⟨none, k⟩).glob.stack = none ∧
      (nextCall i p ⟨none, k⟩).seen = (spec p [i] k).2.1 ∧
      ∀ st ∈ (nextCall i p ⟨none, k⟩).seen, st.head? = some i := by
  have h : nextCall i p ⟨none, k⟩ = ⟨excOf (spec p [i] k).1, (spec p [i] k).2.1, ⟨none, (spec p [i] k).2.2⟩⟩ := by
    simp only [nextCall, activate, run_spec, deactivate, List.length_singleton, if_true]
  rw [h]
  refine ⟨by unfold excOf; split <;> simp, rfl, rfl, ?_⟩
  have hs : ∀ (p : Prog) (enc : List Nat) (k : Nat → Nat), ∀ st ∈ (spec p enc k).2.1, enc <+: st := by
    intro p
    induction p with
    | look => intro enc k st h; simp only [spec, List.mem_singleton] at h; subst h; exact List.prefix_refl _
    | raise => intro enc k st h; cases h
    | seq p q ihp ihq =>
      intro enc k st h
      simp only [spec] at h
      rcases hp : spec p enc k with ⟨b, s, k'⟩
      have ihp' := ihp enc k
      rw [hp] at h ihp'
      cases b with
      | true => exact ihp' st h
      | false =>
        rcases List.mem_append.1 h with h | h
        · exact ihp' st h
        · exact ihq enc k' st h
    | fresh o p ih => intro enc k st h; exact (List.prefix_append _ _).trans (ih _ _ st h)
    | fixed o p ih => intro enc k st h; exact (List.prefix_append _ _).trans (ih _ _ st h)
    | attempt p q ihp ihq =>
      intro enc k st h
      simp only [spec] at h
      rcases hp : spec p enc k with ⟨b, s, k'⟩
      have ihp' := ihp enc k
      rw [hp] at h ihp'
      cases b with
      | false => exact ihp' st h
      | true =>
        rcases List.mem_append.1 h with h | h
        · exact ihp' st h
        · exact ihq enc k' st h
  intro st hst
  obtain ⟨l, rfl⟩ := hs p [i] k st hst
  rfl

/-- Concrete: a batch (object 0) whose encoding (object 1) of the second sample fails and is skipped. -/
example : (nextCall 5 (.fresh 0 (.seq .look (.seq (.attempt (.fresh 1 (.seq .look .raise)) .look) (.fresh 1 .look))))
    ⟨none, fun _ => 7⟩).seen = [[5, 7], [5, 7, 7], [5, 7], [5, 7, 8]] := by decide

/-- Successive scopes of one object inside one `next` get strictly increasing indices: counters never go down. -/
theorem C07_counters_increase (p : Prog) (st : List Nat) (k : Nat → Nat) (o : Nat) :
    k o ≤ (run p ⟨some st, k⟩).glob.counters o := by
  rw [run_spec]
  simp only
  have : ∀ (p : Prog) (enc : List Nat) (k : Nat → Nat), k o ≤ (spec p enc k).2.2 o := by
    intro p
    induction p with
    | look => intro enc k; exact Nat.le_refl _
    | raise => intro enc k; exact Nat.le_refl _
    | seq p q ihp ihq =>
      intro enc k
      have ihp' := ihp enc k
      simp only [spec]
      rcases hp : spec p enc k with ⟨b, s, k'⟩
      rw [hp] at ihp'
      cases b with
      | true => exact ihp'
      | false => exact Nat.le_trans ihp' (ihq enc k')
    | fresh o' p ih =>
      intro enc k
      refine Nat.le_trans ?_ (ih _ _)
      by_cases h : o = o'
      · subst h; simp
      · simp [h]
    | fixed i p ih => intro enc k; exact ih _ _
    | attempt p q ihp ihq =>
      intro enc k
      have ihp' := ihp enc k
      simp only [spec]
      rcases hp : spec p enc k with ⟨b, s, k'⟩
      rw [hp] at ihp'
      cases b with
      | false => exact ihp'
      | true => exact Nat.le_trans ihp' (ihq enc k')
  exact this p st k

/-! ## C09

PyTorch takes the first sample from worker process 0, the next from 1, and so on cyclically. In a loader restored with next
worker `k`, all processes have `worker_id_offset = k` (savable_loader.py:354-356, 549-571, 939). -/

/-- The logical worker that the `j`-th sample of a restored loader comes from. -/
def restoredTurn (n k j : Nat) : Option Nat := rankWorkerId ⟨0, 1, n⟩ ⟨some (j % n, n), k, none⟩

/-- The workers take turns cyclically also in a restored loader, each physical process standing for one logical worker. -/
theorem C09_cyclic_partial (n k j : Nat) (hk : k < n) :
    ∃ w, restoredTurn n k j = some w ∧ restoredTurn n k (j + 1) = some ((w + 1) % n) := by
  refine ⟨(j % n + n - k) % n, by simp [restoredTurn, rankWorkerId], ?_⟩
  simp only [restoredTurn, rankWorkerId, if_true, Option.some.injEq]
  have h1 : (j + 1) % n + n - k = (j + 1) % n + (n - k) := by omega
  have h2 : j % n + n - k = j % n + (n - k) := by omega
  rw [h1, h2, Nat.mod_add_mod, Nat.mod_add_mod, show j % n + (n - k) + 1 = j % n + (n - k + 1) by omega, Nat.mod_add_mod]
  congr 1
  omega

/-- C09 holds exactly if `2k` is a multiple of the number of workers (so always for one and two workers, and for `k = 0`). -/
theorem C09_first_worker (n k : Nat) (hk : k < n) : restoredTurn n k 0 = some k ↔ 2 * k % n = 0 := by
  simp only [restoredTurn, rankWorkerId, if_true, Option.some.injEq, Nat.zero_mod, Nat.zero_add]
  by_cases h0 : k = 0
  · subst h0; simp
  · rw [Nat.mod_eq_of_lt (by omega)]
    constructor
    · intro h
      have : 2 * k = n := by omega
      rw [this]; exact Nat.mod_self n
    · intro h
      have hd : n ∣ 2 * k := Nat.dvd_of_mod_eq_zero h
      obtain ⟨m, hm⟩ := hd
      have h1 : m < 2 := by
        rcases Nat.lt_or_ge m 2 with h | h
        · exact h
        · have := Nat.mul_le_mul_left n h
          omega
      have h2 : m ≠ 0 := by rintro rfl; omega
      have : m = 1 := by omega
      subst this
      omega

/-- C09 is false: with three workers, restoring a state in which worker 1 is next makes worker 2 deliver the first sample. -/
theorem C09_violated : restoredTurn 3 1 0 = some 2 := by decide

end Verif.Worker
