import Verif.Loader.WorkerProps
import Verif.Loader.PlainProps
import Verif.Stream.Example

/-!
# C107: random numbers drawn by user functions from the global generators

User functions may draw from the global generators of their process (`torch`, `numpy`, `random`). Worker processes save and restore these generators together with the dataset (savable_loader.py:459-515); the loader without worker
processes does not (savable_loader.py:113-121).
-/

namespace Verif.Loader

open Verif.Stream

variable {σ κ C C' G : Type}

/-! ### Model -/

/-- A dataset whose last user function `f` (map_dataset.py:109-150, for a function that is neither skipping nor a generator) draws from the global generators of the process, `g : G`; together with these generators. Saving and resuming
are those of a worker process: the state of the generators is saved together with the state of the dataset (savable_loader.py:446-453, 459-473), and restored before the first sample (savable_loader.py:372-374, 486-506). `seed`
are the generators of a new worker (savable_loader.py:37-50). -/
def drawD (D : Dataset σ (Smp C) κ) (f : G → C → C' × G) (seed : G) : Dataset (σ × G) (Smp C') (κ × G) :=
  { init := (D.init, seed)
    step := fun p =>
      match D.step p.1 with
      | .yield a s => .yield ⟨(f p.2 a.content).1, a.key⟩ (s, (f p.2 a.content).2)
      | .skip s => .skip (s, p.2)
      | .stop s => .stop (s, p.2)
      | .raise => .raise
    save := fun p => (D.save p.1, p.2)
    resume := fun k => (D.resume k.1, k.2)
    reset := fun p => (D.reset p.1, p.2)
    restoreSample := fun _ => none
    hasSamples := D.hasSamples }

/-- The same without worker processes (savable_loader.py:113-121, 889-893): only the state of the dataset is saved; the generators of the process that resumes are whatever they are, `now`. -/
def drawMainD (D : Dataset σ (Smp C) κ) (f : G → C → C' × G) (seed now : G) : Dataset (σ × G) (Smp C') κ :=
  { init := (D.init, seed)
    step := (drawD D f seed).step
    save := fun p => D.save p.1
    resume := fun k => (D.resume k, now)
    reset := fun p => (D.reset p.1, p.2)
    restoreSample := fun _ => none
    hasSamples := D.hasSamples }

/-! ### Specification -/

/-- The results of applying `f` to one content after another, beginning with the generators `g`. -/
def drawn (f : G → C → C' × G) : G → List C → List C'
  | _, [] => []
  | g, c :: l => (f g c).1 :: drawn f (f g c).2 l

/-- The generators before sample `i` of the stream `x`. -/
def gensAt (f : G → C → C' × G) (seed : G) (x : Nat → C) : Nat → G
  | 0 => seed
  | i + 1 => (f (gensAt f seed x i) (x i)).2

/-! ### Proofs -/

/-- A result after applying `f`. -/
def drawOut (f : G → C → C' × G) (g : G) : Out σ (Smp C) → Out (σ × G) (Smp C')
  | .item a s' => .item ⟨(f g a.content).1, a.key⟩ (s', (f g a.content).2)
  | .fin s' => .fin (s', g)
  | .err => .err

theorem drawD_obs {D : Dataset σ (Smp C) κ} {f : G → C → C' × G} {seed : G} {s : σ} {o : Out σ (Smp C)} (h : Obs D.step s o) (g : G) :
    Obs (drawD D f seed).step (s, g) (drawOut f g o) := by
  induction h with
  | item h => exact .item (by simp [drawD, h])
  | fin h => exact .fin (by simp [drawD, h])
  | err h => exact .err (by simp [drawD, h])
  | @skip s s' o h _ ih => exact .skip (s' := (s', g)) (by simp [drawD, h]) ih

theorem drawD_obs_inv {D : Dataset σ (Smp C) κ} {f : G → C → C' × G} {seed : G} {p : σ × G} {o : Out (σ × G) (Smp C')} (h : Obs (drawD D f seed).step p o) :
    (∀ b q, o = .item b q → ∃ a s', Obs D.step p.1 (.item a s') ∧ b = ⟨(f p.2 a.content).1, a.key⟩ ∧ q = (s', (f p.2 a.content).2)) ∧
    (∀ q, o = .fin q → ∃ s', Obs D.step p.1 (.fin s') ∧ q = (s', p.2)) ∧ (o = .err → Obs D.step p.1 .err) := by
  induction h with
  | @item s a s' h =>
    unfold drawD at h
    dsimp only at h
    cases e : D.step s.1 with
    | yield x t =>
      rw [e] at h
      simp only [Step.yield.injEq] at h
      refine ⟨?_, (by intro q hq; cases hq), (by intro hq; cases hq)⟩
      intro b q hq
      cases hq
      exact ⟨x, t, .item e, h.1.symm, h.2.symm⟩
    | skip t => rw [e] at h; cases h
    | stop t => rw [e] at h; cases h
    | raise => rw [e] at h; cases h
  | @fin s s' h =>
    unfold drawD at h
    dsimp only at h
    cases e : D.step s.1 with
    | stop t =>
      rw [e] at h
      simp only [Step.stop.injEq] at h
      refine ⟨(by intro b q hq; cases hq), ?_, (by intro hq; cases hq)⟩
      intro q hq
      cases hq
      exact ⟨t, .fin e, h.symm⟩
    | skip t => rw [e] at h; cases h
    | yield x t => rw [e] at h; cases h
    | raise => rw [e] at h; cases h
  | @err s h =>
    unfold drawD at h
    dsimp only at h
    cases e : D.step s.1 with
    | raise => exact ⟨(by intro b q hq; cases hq), (by intro q hq; cases hq), fun _ => .err e⟩
    | skip t => rw [e] at h; cases h
    | yield x t => rw [e] at h; cases h
    | stop t => rw [e] at h; cases h
  | @skip s s' o h _ ih =>
    unfold drawD at h
    dsimp only at h
    cases e : D.step s.1 with
    | skip t =>
      rw [e] at h
      simp only [Step.skip.injEq] at h
      subst h
      obtain ⟨h1, h2, h3⟩ := ih
      refine ⟨?_, ?_, ?_⟩
      · intro b q hq
        obtain ⟨a, s', h4, h5⟩ := h1 b q hq
        exact ⟨a, s', .skip e h4, h5⟩
      · intro q hq
        obtain ⟨s', h4, h5⟩ := h2 q hq
        exact ⟨s', .skip e h4, h5⟩
      · intro hq
        exact .skip e (h3 hq)
    | raise => rw [e] at h; cases h
    | yield x t => rw [e] at h; cases h
    | stop t => rw [e] at h; cases h

/-- The events after applying `f`. -/
def drawEvs (f : G → C → C' × G) : G → List (Ev (Smp C)) → List (Ev (Smp C'))
  | _, [] => []
  | g, .item a :: l => .item ⟨(f g a.content).1, a.key⟩ :: drawEvs f (f g a.content).2 l
  | g, .fin :: l => .fin :: drawEvs f g l
  | g, .err :: l => .err :: drawEvs f g l

theorem drawD_trace {D : Dataset σ (Smp C) κ} {f : G → C → C' × G} {seed : G} {p : σ × G} {evs : List (Ev (Smp C'))} :
    (drawD D f seed).Trace p evs ↔ ∃ es, D.Trace p.1 es ∧ evs = drawEvs f p.2 es := by
  constructor
  · intro h
    induction h with
    | nil => exact ⟨[], .nil, rfl⟩
    | item h _ ih =>
      obtain ⟨a, s', h1, rfl, rfl⟩ := (drawD_obs_inv h).1 _ _ rfl
      obtain ⟨es, h2, rfl⟩ := ih
      exact ⟨.item a :: es, .item h1 h2, rfl⟩
    | fin h _ ih =>
      obtain ⟨s', h1, rfl⟩ := (drawD_obs_inv h).2.1 _ rfl
      obtain ⟨es, h2, rfl⟩ := ih
      exact ⟨.fin :: es, .fin h1 h2, rfl⟩
    | err h => exact ⟨[.err], .err ((drawD_obs_inv h).2.2 rfl), rfl⟩
  · rintro ⟨es, h, rfl⟩
    obtain ⟨s, g⟩ := p
    dsimp only at h ⊢
    induction h generalizing g with
    | nil => exact .nil
    | item h _ ih => exact .item (drawD_obs h g) (ih _)
    | fin h _ ih => exact .fin (drawD_obs h g) (ih _)
    | err h => exact .err (drawD_obs h g)

theorem drawD_equiv {D : Dataset σ (Smp C) κ} {f : G → C → C' × G} {seed : G} {s t : σ} (h : D.Equiv s t) (g : G) : (drawD D f seed).Equiv (s, g) (t, g) := by
  intro evs
  rw [drawD_trace, drawD_trace]
  exact exists_congr fun es => and_congr (h es) Iff.rfl

theorem drawD_paused {D : Dataset σ (Smp C) κ} {f : G → C → C' × G} {seed : G} {r : Bool} {p : σ × G} (h : (drawD D f seed).Paused r p) : D.Paused r p.1 := by
  induction h with
  | init => exact .init
  | item _ ho ih =>
    obtain ⟨a, s', h1, _, rfl⟩ := (drawD_obs_inv ho).1 _ _ rfl
    exact .item ih h1
  | fin _ ho ih =>
    obtain ⟨s', h1, rfl⟩ := (drawD_obs_inv ho).2.1 _ rfl
    exact .fin ih h1
  | resume _ ih => exact .resume ih
  | reset hr _ ih => exact .reset hr ih

/-! ### Theorems -/

/-- **C107, one worker process.** If the dataset resumes exactly, it also does so with a function that draws from the global generators: the resumed worker draws the same numbers. -/
theorem C107_worker_resumes {D : Dataset σ (Smp C) κ} (hD : D.ResumesExactly) (f : G → C → C' × G) (seed : G) : (drawD D f seed).ResumesExactly := by
  rintro ⟨s, g⟩ hp
  exact drawD_equiv (hD s (drawD_paused hp)) g

/-- The stream of a dataset with such a function. -/
theorem C107_stream {D : Dataset σ (Smp C) κ} {x : Nat → Smp C} (h : Loader.Stream D x) (f : G → C → C' × G) (seed : G) :
    Loader.Stream (drawD D f seed) fun i => ⟨(f (gensAt f seed (fun j => (x j).content) i) (x i).content).1, (x i).key⟩ := by
  intro N
  obtain ⟨st, h1⟩ := h N
  refine ⟨fun i => (st i, gensAt f seed (fun j => (x j).content) i), ⟨?_, ?_⟩⟩
  · show (st 0, seed) = (D.init, seed)
    rw [h1.init]
  · intro j hj
    exact drawD_obs (h1.item j hj) _

/-- What `gensAt` gives are the results of applying the function to the contents in order. -/
theorem C107_in_order (f : G → C → C' × G) (seed : G) (x : Nat → C) (n : Nat) :
    (List.range n).map (fun i => (f (gensAt f seed x i) (x i)).1) = drawn f seed ((List.range n).map x) := by
  have key : ∀ n seed (x : Nat → C), (List.range n).map (fun i => (f (gensAt f seed x i) (x i)).1) = drawn f seed ((List.range n).map x) := by
    intro n
    induction n with
    | zero => intro _ _; rfl
    | succ n ih =>
      intro seed x
      rw [List.range_succ_eq_map, List.map_cons, List.map_map, List.map_cons, List.map_map, drawn]
      congr 1
      have e : ∀ i, gensAt f seed x (i + 1) = gensAt f (f seed (x 0)).2 (fun j => x (j + 1)) i := by
        intro i
        induction i with
        | zero => rfl
        | succ i ih => rw [gensAt, ih]; rfl
      have := ih (f seed (x 0)).2 fun j => x (j + 1)
      rw [show x ∘ Nat.succ = fun j => x (j + 1) from rfl, ← this]
      apply List.map_congr_left
      intro i _
      show (f (gensAt f seed x (i + 1)) (x (i + 1))).1 = _
      rw [e]
  exact key n seed x

/-- **C107, a loader with worker processes.** The functions of each worker draw from the generators of their process, `seed w` at the start. After any number of saves and restores (each in new processes, and with the limits of C36: every
worker has delivered a sample, and `2 * next_worker_id` is a multiple of the number of workers, as for one and two workers), in any schedule, the loader goes on with exactly the batches of the uninterrupted run, random numbers
included. -/
theorem C107_loader_partial {n rank : Nat} (hn : 0 < n) {D : Nat → Dataset σ (Smp C) κ} (hD : ∀ w < n, (D w).ResumesExactly) {x : Nat → Nat → Smp C} (hx : ∀ w < n, Loader.Stream (D w) (x w))
    (f : G → C → C' × G) (seed : Nat → G) {us : Nat → (σ × G) × WAttr (κ × G)} {cs : Nat → Nat} {off : Nat}
    (h : LInc n rank (fun w => drawD (D w) f (seed w)) (fun k => 2 * k % n = 0) us cs off) {cfg : Nat → Cfg}
    (hcfg : ∀ w < n, 2 ≤ (cfg w).keep ∧ 2 * n ≤ (cfg w).minN)
    {S : Nat → Nat → (σ × G) × WAttr (κ × G)} {g : Nat → Nat → Nat × Smp C'} {s : Sys (Got C')} (hl : Life n rank (fun w => drawD (D w) f (seed w)) us off cfg S g s) :
    got s = (List.range (got s).length).map (fun q =>
      uninterrupted n rank (fun w i => ⟨(f (gensAt f (seed w) (fun j => (x w j).content) i) (x w i).content).1, (x w i).key⟩) (((List.range n).map cs).sum + q)) :=
  C36_loader_exact_partial hn (fun w hw => C107_worker_resumes (hD w hw) f (seed w)) (fun w hw => C107_stream (hx w hw) f (seed w)) h hcfg hl

/-- **C107, a loader with any number of worker processes**: what each worker delivers continues with the same random numbers (the order of the workers may be wrong for three and more workers, C36). -/
theorem C107_loader_streams_partial {n rank : Nat} (hn : 0 < n) {D : Nat → Dataset σ (Smp C) κ} {ok : Nat → Prop} (hD : ∀ w < n, (D w).ResumesExactly) {x : Nat → Nat → Smp C} (hx : ∀ w < n, Loader.Stream (D w) (x w))
    (f : G → C → C' × G) (seed : Nat → G) {us : Nat → (σ × G) × WAttr (κ × G)} {cs : Nat → Nat} {off : Nat}
    (h : LInc n rank (fun w => drawD (D w) f (seed w)) ok us cs off) {cfg : Nat → Cfg} (hcfg : ∀ w < n, 2 ≤ (cfg w).keep ∧ 2 * n ≤ (cfg w).minN)
    {S : Nat → Nat → (σ × G) × WAttr (κ × G)} {g : Nat → Nat → Nat × Smp C'} {s : Sys (Got C')} (hl : Life n rank (fun w => drawD (D w) f (seed w)) us off cfg S g s) :
    got s = (List.range (got s).length).map (fun q =>
      let w := logical n off (q % n)
      let i := cs w + q / n
      ⟨w, i, Smp.addKey (loaderKey (rank * n + w) i) ⟨(f (gensAt f (seed w) (fun j => (x w j).content) i) (x w i).content).1, (x w i).key⟩⟩) :=
  C36_loader_streams_partial hn (fun w hw => C107_worker_resumes (hD w hw) f (seed w)) (fun w hw => C107_stream (hx w hw) f (seed w)) h hcfg hl

/-- **C107, without worker processes**, functions that do not draw. -/
theorem C107_main_partial {D : Dataset σ (Smp C) κ} (hD : D.ResumesExactly) (f : G → C → C' × G) (seed now : G) (hf : ∀ g g' c, (f g c).1 = (f g' c).1) : (drawMainD D f seed now).ResumesExactly := by
  have hpos : ∀ {p}, (drawMainD D f seed now).Paused false p → D.Paused false p.1 := by
    intro p h
    induction h with
    | init => exact .init
    | item _ ho ih =>
      obtain ⟨a, s', h1, _, rfl⟩ := (drawD_obs_inv (seed := seed) ho).1 _ _ rfl
      exact .item ih h1
    | fin _ ho ih =>
      obtain ⟨s', h1, rfl⟩ := (drawD_obs_inv (seed := seed) ho).2.1 _ rfl
      exact .fin ih h1
    | resume _ ih => exact .resume ih
    | reset hr _ ih => cases hr
  have hev : ∀ (es : List (Ev (Smp C))) (g g' : G), drawEvs f g es = drawEvs f g' es := by
    intro es
    induction es with
    | nil => intro _ _; rfl
    | cons e es ih =>
      intro g g'
      cases e with
      | item a => simp only [drawEvs, hf g g', ih _ (f g' a.content).2]
      | fin => simp only [drawEvs, ih g g']
      | err => simp only [drawEvs, ih g g']
  have htr : ∀ p evs, (drawMainD D f seed now).Trace p evs ↔ (drawD D f seed).Trace p evs := by
    intro p evs
    constructor
    · intro h
      induction h with
      | nil => exact .nil
      | item h _ ih => exact .item h ih
      | fin h _ ih => exact .fin h ih
      | err h => exact .err h
    · intro h
      induction h with
      | nil => exact .nil
      | item h _ ih => exact .item h ih
      | fin h _ ih => exact .fin h ih
      | err h => exact .err h
  rintro ⟨s, g⟩ hp evs
  rw [htr, htr, drawD_trace, drawD_trace]
  refine exists_congr fun es => and_congr (hD s (hpos hp) es) ?_
  show evs = drawEvs f g es ↔ evs = drawEvs f now es
  rw [hev es g now]

/-- A function adding a number from a generator that counts. -/
def exDraw (g : Nat) (c : Nat) : Nat × Nat := (c + g, g + 1)

/-- **C107 is violated** without worker processes: the dataset delivers 10, 20, …, the function adds numbers drawn from the generator. After one sample the state is saved; a new process (with the same seed) resumes: other numbers. -/
theorem C107_violated_main : ∃ D : Dataset Nat (Smp Nat) Nat, D.ResumesExactly ∧ ¬ (drawMainD D exDraw 0 0).ResumesExactly := by
  refine ⟨⟨0, fun s => .yield ⟨10 * s, []⟩ (s + 1), fun s => s, fun k => k, fun _ => 0, fun _ => none, true⟩, fun s _ _ => Iff.rfl, fun h => ?_⟩
  exact Dataset.not_equiv 1 1 (by decide +kernel) (by decide +kernel) (h (1, 1) (.item .init (.item rfl)))

/-- The worker process resumes this case exactly. -/
example : (drawD (⟨0, fun s => .yield ⟨10 * s, []⟩ (s + 1), fun s => s, fun k => k, fun _ => 0, fun _ => none, true⟩ : Dataset Nat (Smp Nat) Nat) exDraw 0).ResumesExactly :=
  C107_worker_resumes (fun _ _ _ => Iff.rfl) _ _

/-- Its stream exists: 0 + 0, 10 + 1, 20 + 2, … -/
example : Loader.Stream (drawD (⟨0, fun s => .yield ⟨10 * s, []⟩ (s + 1), fun s => s, fun k => k, fun _ => 0, fun _ => none, true⟩ : Dataset Nat (Smp Nat) Nat) exDraw 0)
    (fun i => ⟨(exDraw (gensAt exDraw 0 (fun j => 10 * j) i) (10 * i)).1, []⟩) :=
  C107_stream (x := fun i => ⟨10 * i, []⟩) (fun N => ⟨fun i => i, ⟨rfl, fun _ _ => .item rfl⟩⟩) exDraw 0

end Verif.Loader
