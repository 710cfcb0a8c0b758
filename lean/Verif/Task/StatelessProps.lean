import Verif.Task.StatelessModel

/-!
# C46: stateless functions with seeds

Specification: what a function sees if it is alone in a process, seeded by the seed of the worker and the sample index.
-/

namespace Verif.Task

variable {G A R L : Type}

/-- Result of the function if it is alone, with generators seeded from `ws` and `i`. -/
def soloCall (F : UserFns G A R L) (S : SeedArgs G) (ws i : Nat) (a : A) : R := (F.plain a i (S ws i)).1

/-- What the generator gives at its `n`-th `next` (from 0) if it is alone and starts in state `l` with generators `g`. -/
def soloFrom (F : UserFns G A R L) : Nat → L → G → Got R
  | 0, l, g =>
    match F.turn l g with
    | (.yield r _, _) => .yielded r
    | (.done r, _) => .ended r
  | n + 1, l, g =>
    match F.turn l g with
    | (.yield _ l', g') => soloFrom F n l' g'
    | (.done _, _) => .exhausted

/-- The same for the generator function, seeded from `ws` and `i`. -/
def soloNext (F : UserFns G A R L) (S : SeedArgs G) (ws i : Nat) (a : A) (n : Nat) : Got R :=
  soloFrom F n (F.start a i) (S ws i)

/-- **C46** (isolation): whatever happened before, a call of a decorated function, also one that raises, and each `next` on a decorated
generator leave the global random generators exactly as they were. -/
theorem C46_outer_untouched (F : UserFns G A R L) (S : SeedArgs G) (w : World G L) (ws i k : Nat) (a : A) :
    (step F S w (.call ws i a)).2.rng = w.rng ∧ (step F S w (.next ws i k a)).2.rng = w.rng := by
  refine ⟨rfl, ?_⟩
  simp only [step, callGen]
  cases w.gens k with
  | fresh =>
    simp only
    cases F.turn (F.start a i) (S (w.cached.getD ws) i) with
    | mk t g => cases t <;> rfl
  | waiting l inner =>
    simp only
    cases F.turn l inner with
    | mk t g => cases t <;> rfl
  | ended => rfl

/-- The events before an event concern the same worker seed. -/
def SameSeed (ws : Nat) (l : List (Ev G A)) : Prop :=
  ∀ e ∈ l, (∀ ws' i a, e = .call ws' i a → ws' = ws) ∧ (∀ ws' i k a, e = .next ws' i k a → ws' = ws)

theorem cached_step {F : UserFns G A R L} {S : SeedArgs G} {w : World G L} {ws : Nat} {e : Ev G A}
    (hc : w.cached = none ∨ w.cached = some ws) (he : SameSeed ws [e]) :
    (step F S w e).2.cached = none ∨ (step F S w e).2.cached = some ws := by
  cases e with
  | other f => exact hc
  | call ws' i a =>
    have : ws' = ws := (he (.call ws' i a) (by simp)).1 _ _ _ rfl
    subst this
    right
    rcases hc with h | h <;> simp [step, callPlain, h]
  | next ws' i k a =>
    have : ws' = ws := (he (.next ws' i k a) (by simp)).2 _ _ _ _ rfl
    subst this
    simp only [step, callGen]
    cases w.gens k with
    | fresh =>
      simp only
      have : w.cached.getD ws' = ws' := by rcases hc with h | h <;> simp [h]
      rw [this]
      cases F.turn (F.start a i) (S ws' i) with
      | mk t g => cases t <;> exact Or.inr rfl
    | waiting l inner =>
      simp only
      cases F.turn l inner with
      | mk t g => cases t <;> exact hc
    | ended => exact hc

theorem cached_run {F : UserFns G A R L} {S : SeedArgs G} {l : List (Ev G A)} {w : World G L} {ws : Nat}
    (hc : w.cached = none ∨ w.cached = some ws) (hl : SameSeed ws l) :
    (run F S l w).2.cached = none ∨ (run F S l w).2.cached = some ws := by
  induction l generalizing w with
  | nil => exact hc
  | cons e l ih =>
    exact ih (cached_step hc (fun x hx => hl x (by simp at hx; simp [hx]))) (fun x hx => hl x (by simp [hx]))

/-- The full statement of the second half of C46: in any process, after any history, a call under the worker seed `ws` gives what the
function alone gives. -/
def CallsReproducible (F : UserFns G A R L) (S : SeedArgs G) : Prop :=
  ∀ (g : G) (hist : List (Ev G A)) (ws i : Nat) (a : A),
    (step F S (run F S hist (World.new g)).2 (.call ws i a)).1 = .result (soloCall F S ws i a)

/-- **C46** (reproducibility), partial: in a process in which all calls so far were made under the same worker seed, a call gives what the
function alone gives, whatever else happened. Missing: processes in which the worker seed changes; there the claim is false
(`C46_violated`). -/
theorem C46_call_partial (F : UserFns G A R L) (S : SeedArgs G) (g : G) (hist : List (Ev G A)) (ws i : Nat) (a : A)
    (hs : SameSeed ws hist) :
    (step F S (run F S hist (World.new g)).2 (.call ws i a)).1 = .result (soloCall F S ws i a) := by
  have := cached_run (F := F) (S := S) (w := World.new g) (Or.inl rfl) hs
  generalize (run F S hist (World.new g)).2 = w at *
  have : w.cached.getD ws = ws := by rcases this with h | h <;> simp [h]
  simp [step, callPlain, this, soloCall]

/-- The results of the `next` calls on the `k`-th generator object in a history, in order. -/
def nexts (k : Nat) : List (Ev G A × Ob R) → List (Got R)
  | [] => []
  | (.next _ _ k' _, .got r) :: l => if k' = k then r :: nexts k l else nexts k l
  | _ :: l => nexts k l

/-- All `next` calls on the `k`-th object are made with the sample index and the argument it was made for. -/
def ForSample (k i : Nat) (a : A) (l : List (Ev G A)) : Prop :=
  ∀ ws' i' a', Ev.next ws' i' k a' ∈ l → i' = i ∧ a' = a

theorem soloFrom_ended (F : UserFns G A R L) (l : L) (g : G) (r : R) (g' : G) (h : F.turn l g = (.done r, g')) (n : Nat) :
    soloFrom F (n + 1) l g = .exhausted := by simp [soloFrom, h]

/-- What is left to come from an object in a given state -/
def rest (F : UserFns G A R L) (S : SeedArgs G) (ws i : Nat) (a : A) : GenObj G L → Nat → Got R
  | .fresh, n => soloNext F S ws i a n
  | .waiting l inner, n => soloFrom F n l inner
  | .ended, _ => .exhausted

theorem rest_other {F : UserFns G A R L} {S : SeedArgs G} {w : World G L} {e : Ev G A} {k : Nat}
    (he : ∀ ws i a, e ≠ .next ws i k a) : (step F S w e).2.gens k = w.gens k := by
  cases e with
  | other f => rfl
  | call ws i a => rfl
  | next ws i k' a =>
    have hk : k' ≠ k := by rintro rfl; exact he _ _ _ rfl
    have hk' : ¬ k = k' := fun h => hk h.symm
    simp only [step, callGen]
    cases w.gens k' with
    | fresh =>
      simp only
      cases F.turn (F.start a i) (S (w.cached.getD ws) i) with
      | mk t g => cases t <;> simp [hk']
    | waiting l inner =>
      simp only
      cases F.turn l inner with
      | mk t g => cases t <;> simp [hk']
    | ended => rfl

theorem rest_next {F : UserFns G A R L} {S : SeedArgs G} {w : World G L} {ws i k : Nat} {a : A}
    (hc : w.cached = none ∨ w.cached = some ws) :
    (step F S w (.next ws i k a)).1 = .got (rest F S ws i a (w.gens k) 0) ∧
    ∀ n, rest F S ws i a ((step F S w (.next ws i k a)).2.gens k) n = rest F S ws i a (w.gens k) (n + 1) := by
  have hg : w.cached.getD ws = ws := by rcases hc with h | h <;> simp [h]
  simp only [step, callGen, hg]
  cases hk : w.gens k with
  | fresh =>
    simp only [rest, soloNext, soloFrom]
    cases ht : F.turn (F.start a i) (S ws i) with
    | mk t g => cases t <;> simp [rest]
  | waiting l inner =>
    simp only [rest, soloFrom]
    cases ht : F.turn l inner with
    | mk t g => cases t <;> simp [rest]
  | ended => simp [rest, hk]

theorem nexts_run {F : UserFns G A R L} {S : SeedArgs G} {l : List (Ev G A)} {w : World G L} {ws i k : Nat} {a : A}
    (hc : w.cached = none ∨ w.cached = some ws) (hs : SameSeed ws l) (hk : ForSample k i a l) :
    nexts k (run F S l w).1 =
      (List.range (nexts k (run F S l w).1).length).map (rest F S ws i a (w.gens k)) := by
  induction l generalizing w with
  | nil => rfl
  | cons e l ih =>
    have hc' := cached_step (F := F) (S := S) hc (fun x hx => hs x (by simp at hx; simp [hx]) : SameSeed ws [e])
    have ih' := ih hc' (fun x hx => hs x (by simp [hx])) (fun ws' i' a' h => hk ws' i' a' (by simp [h]))
    by_cases he : ∃ ws' i' a', e = .next ws' i' k a'
    · obtain ⟨ws', i', a', rfl⟩ := he
      have hws : ws' = ws := (hs (.next ws' i' k a') (by simp)).2 _ _ _ _ rfl
      obtain ⟨hi, ha⟩ := hk ws' i' a' (by simp)
      subst hws; subst hi; subst ha
      obtain ⟨h1, h2⟩ := rest_next (F := F) (S := S) (w := w) (i := i') (k := k) (a := a') hc
      simp only [run, h1, nexts, if_true, List.length_cons]
      rw [List.range_succ_eq_map, List.map_cons, List.map_map]
      congr 1
      rw [ih']
      simp only [List.length_map, List.length_range]
      apply List.map_congr_left
      intro n _
      simp only [Function.comp]
      exact h2 n
    · have he' : ∀ ws i a, e ≠ .next ws i k a := fun ws i a h => he ⟨ws, i, a, h⟩
      have hn : nexts k (run F S (e :: l) w).1 = nexts k (run F S l (step F S w e).2).1 := by
        simp only [run]
        cases e with
        | other f => rfl
        | call ws i a => rfl
        | next ws'' i'' k'' a'' =>
          have : k'' ≠ k := by rintro rfl; exact he' _ _ _ rfl
          simp [step, nexts, this]
      rw [hn, ih', rest_other he']
      simp

/-- **C46** for generator functions, partial: whatever else happens between the `next` calls (other generators, other calls, other uses of
the global random generators), the `n`-th `next` on a decorated generator gives what the generator alone gives. Missing: processes in which
the worker seed changes. -/
theorem C46_generator_partial (F : UserFns G A R L) (S : SeedArgs G) (g : G) (hist : List (Ev G A)) (ws i k : Nat) (a : A)
    (hs : SameSeed ws hist) (hk : ForSample k i a hist) (n : Nat) (r : Got R)
    (h : (nexts k (run F S hist (World.new g)).1)[n]? = some r) : r = soloNext F S ws i a n := by
  rw [nexts_run (F := F) (S := S) (w := World.new g) (ws := ws) (i := i) (k := k) (a := a) (Or.inl rfl) hs hk] at h
  obtain ⟨hlt, h⟩ := List.getElem?_eq_some_iff.1 h
  rw [List.getElem_map, List.getElem_range] at h
  exact h.symm

/-! ## Examples -/

/-- A random generator: a counter of what was drawn since it was seeded. The function draws one number and adds its argument; the generator
draws a number for each of its turns, and ends after two. -/
def exF : UserFns (Nat × Nat) Nat Nat Nat where
  plain a _ g := (a + 100 * g.1 + g.2, (g.1, g.2 + 1))
  start _ _ := 0
  turn l g := if l < 2 then (.yield (100 * g.1 + g.2) (l + 1), (g.1, g.2 + 1)) else (.done 7, g)

def exS : SeedArgs (Nat × Nat) := fun ws i => (10 * ws + i, 0)

/-- A history that meets the hypotheses: two generators, a call and other code, interleaved. -/
def exHist : List (Ev (Nat × Nat) Nat) :=
  [.other (fun g => (g.1, g.2 + 5)), .next 1 3 0 0, .next 1 4 1 0, .other (fun _ => (99, 99)), .next 1 3 0 0, .call 1 5 0, .next 1 4 1 0,
    .next 1 3 0 0, .next 1 3 0 0]

example : SameSeed 1 exHist ∧ ForSample 0 3 0 exHist := by
  constructor
  · intro e he
    simp only [exHist, List.mem_cons, List.not_mem_nil, or_false] at he
    rcases he with rfl | rfl | rfl | rfl | rfl | rfl | rfl | rfl | rfl <;>
      exact ⟨(by intro _ _ _ h; cases h <;> rfl), (by intro _ _ _ _ h; cases h <;> rfl)⟩
  · intro ws i a h
    simp only [exHist, List.mem_cons, List.not_mem_nil, or_false, Ev.next.injEq, reduceCtorEq, false_or] at h
    revert h
    simp only [Nat.reduceEqDiff, false_and, and_false, false_or, or_false, true_and, and_true]
    omega

example : nexts 0 (run exF exS exHist (World.new (0, 0))).1 = [.yielded 1300, .yielded 1301, .ended 7, .exhausted] := by decide

/-- **C46 does not hold**: the seed of the worker is computed at the first call in the process and used for all later ones. If the main
process restores a sample of one worker and then one of another worker (or iterates two loaders with different seed offsets), the second
one sees other random numbers than when it was made. -/
theorem C46_violated : ¬ CallsReproducible exF exS := by
  intro h
  have := h (0, 0) [.call 1 0 0] 2 0 0
  revert this
  decide

/-- The same for generators. -/
theorem C46_violated_generator : ∃ (hist : List (Ev (Nat × Nat) Nat)) (ws i k a : Nat),
    (step exF exS (run exF exS hist (World.new (0, 0))).2 (.next ws i k a)).1 ≠ .got (soloNext exF exS ws i a 0) :=
  ⟨[.next 1 0 0 0], 2, 0, 1, 0, by decide⟩

open Verif.Worker in
/-- Two workers of a rank have different seeds (for a hash without collisions), so the violation occurs: a loader restores a sample of worker
1 of rank 0 and then one of worker 0. -/
theorem C46_violated_restore (h : Nat → Nat → Nat) (hh : ∀ a b o, h a o = h b o → a = b) (offset : Nat) :
    ∃ (c : Config) (p1 p2 : Proc) (s1 s2 : Nat), p1.override = some 1 ∧ p2.override = some 0 ∧
      workerSeed h offset c p1 = some s1 ∧ workerSeed h offset c p2 = some s2 ∧ s1 ≠ s2 := by
  refine ⟨⟨0, 1, 2⟩, ⟨none, 0, some 1⟩, ⟨none, 0, some 0⟩, h 1 offset, h 0 offset, rfl, rfl, rfl, rfl, ?_⟩
  intro e
  exact absurd (hh _ _ _ e) (by decide)

open Verif.Worker in
/-- Restoring on another rank: with worker processes the seed is the one of the worker that made the sample, whatever rank restores it;
without worker processes it is the seed of the restoring rank. -/
theorem C46_seed_of_restored (h : Nat → Nat → Nat) (offset : Nat) (c c' : Config) (p p' : Proc) (g : Nat)
    (hw : c.numWorkers = c'.numWorkers) (h0 : c.numWorkers ≠ 0)
    (_hp : p.override = none) (hg : globalWorkerId c p = some g) (hp' : p'.override = some g) :
    workerSeed h offset c' p' = workerSeed h offset c p := by
  have h0' : c'.numWorkers ≠ 0 := hw ▸ h0
  simp only [workerSeed, h0, h0', if_false, hg]
  simp [globalWorkerId, hp']

open Verif.Worker in
theorem C46_violated_rank (h : Nat → Nat → Nat) (hh : ∀ a b o, h a o = h b o → a = b) (offset : Nat) :
    ∃ (c c' : Config) (p p' : Proc) (g : Nat), c.numWorkers = 0 ∧ c'.numWorkers = 0 ∧
      p.override = none ∧ globalWorkerId c p = some g ∧ p'.override = some g ∧
      workerSeed h offset c' p' ≠ workerSeed h offset c p := by
  refine ⟨⟨0, 2, 0⟩, ⟨1, 2, 0⟩, ⟨none, 0, none⟩, ⟨none, 0, some 0⟩, 0, rfl, rfl, rfl, by decide, rfl, ?_⟩
  intro e
  simp only [workerSeed, if_true, Option.some.injEq] at e
  exact absurd (hh _ _ _ e) (by decide)

end Verif.Task
