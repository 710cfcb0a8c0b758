import Init.Data.Nat.ToString

/-!
# C112: the worker configuration of a pipeline, and the seeds

Source: /repo src/megatron/energon/worker.py:21-57, 126-136, 202-223 (`WorkerConfig`, `__eq__`, `worker_seed`), wrappers/base.py:56-71 and
savable_loader.py:71-79 (the check of wrappers), loader.py:42-61, 79-94 (`worker_config` of the loaders), savable_loader.py:37-48, 741-754, 1073-1087
(seeds of the worker processes).

SHA-1 with the lower 32 bits of the result is a function `hash` on texts. Logging and `data_parallel_group` are left out.
-/

namespace Verif.Worker.Seed

/-! ## Model -/

/-- `WorkerConfig` -/
structure WCfg where
  rank : Nat
  worldSize : Nat
  numWorkers : Nat
  seedOffset : Int
deriving DecidableEq

/-- worker.py:126-136 `__eq__` with another `WorkerConfig` -/
def WCfg.eq (a b : WCfg) : Bool := a.rank == b.rank && a.worldSize == b.worldSize && a.numWorkers == b.numWorkers

/-- What may be passed as `worker_config` to a loader -/
inductive Passed where
  | cfg (c : WCfg)
  /-- another object, e.g. a number -/
  | other

/-- `passed != dataset.worker_config`. For other objects `__eq__` *returns* an exception object, which counts as true, so `!=` is false. -/
def Passed.ne (p : Passed) (c : WCfg) : Bool :=
  match p with
  | .cfg d => !(d.eq c)
  | .other => false

/-- A dataset: its worker configuration, and those of all datasets in it -/
structure Ds where
  cfg : WCfg
  all : List WCfg

/-- A dataset that reads data -/
def source (c : WCfg) : Ds := ⟨c, [c]⟩

/-- wrappers/base.py:56-71: a wrapper with the configuration `c`; `none`: the assertion fails -/
def wrap (c : WCfg) (inner : List Ds) : Option Ds :=
  if inner.all fun d => d.cfg.eq c then some ⟨c, c :: inner.flatMap (·.all)⟩ else none

/-- loader.py:42-61, 79-94: the configuration a loader uses; `none`: `AssertionError` -/
def loaderCfg (ds : WCfg) (passed : Option Passed) : Option WCfg :=
  match passed with
  | some p => if p.ne ds then none else some ds
  | none => some ds

/-- `str(n)` for an integer -/
def intText : Int → List Char
  | .ofNat n => Nat.toDigits 10 n
  | .negSucc n => '-' :: Nat.toDigits 10 (n + 1)

/-- worker.py:213-217: the number in the seed of the worker `i` (for `num_workers = 0` there is only the main process) -/
def seedNumber (c : WCfg) (i : Nat) : Nat := if c.numWorkers = 0 then c.rank else c.rank * c.numWorkers + i

/-- worker.py:219-223 `worker_seed` -/
def workerSeed (hash : List Char → Nat) (c : WCfg) (i : Nat) : Nat :=
  hash (Nat.toDigits 10 (seedNumber c i) ++ ',' :: intText c.seedOffset)

/-- savable_loader.py:741-754, 37-48: the seeds of the global generators in the worker processes of a loader. Without worker processes nothing is seeded. -/
def userSeeds (hash : List Char → Nat) (loader : WCfg) : List Nat := (List.range loader.numWorkers).map (workerSeed hash loader)

/-! ## Specification -/

/-- Datasets made by wrapping -/
inductive Made : Ds → Prop
  | source (c : WCfg) : Made (source c)
  | wrap {c : WCfg} {inner : List Ds} {d : Ds} : (∀ x ∈ inner, Made x) → wrap c inner = some d → Made d

/-- The same place: rank, number of ranks and of workers -/
def SamePlace (a b : WCfg) : Prop := a.rank = b.rank ∧ a.worldSize = b.worldSize ∧ a.numWorkers = b.numWorkers

theorem eq_iff {a b : WCfg} : a.eq b = true ↔ SamePlace a b := by
  unfold WCfg.eq SamePlace
  simp only [Bool.and_eq_true, beq_iff_eq]
  constructor
  · rintro ⟨⟨h1, h2⟩, h3⟩; exact ⟨h1, h2, h3⟩
  · rintro ⟨h1, h2, h3⟩; exact ⟨⟨h1, h2⟩, h3⟩

/-- **C112, one place for all**: all datasets in a pipeline have the same rank, number of ranks and number of workers. -/
theorem C112_one_place {d : Ds} (h : Made d) : ∀ c ∈ d.all, SamePlace c d.cfg := by
  induction h with
  | source c =>
    intro c' h'
    cases List.mem_singleton.1 h'
    exact ⟨rfl, rfl, rfl⟩
  | @wrap c inner d _ hw ih =>
    unfold wrap at hw
    split at hw
    · rename_i hall
      cases hw
      intro c' h'
      rcases List.mem_cons.1 h' with rfl | h'
      · exact ⟨rfl, rfl, rfl⟩
      · obtain ⟨x, hx, hc⟩ := List.mem_flatMap.1 h'
        obtain ⟨a1, a2, a3⟩ := ih x hx c' hc
        obtain ⟨b1, b2, b3⟩ := eq_iff.1 (List.all_eq_true.1 hall x hx)
        exact ⟨a1.trans b1, a2.trans b2, a3.trans b3⟩
    · cases hw

/-- **C112, others are refused**: wrapping fails exactly if a dataset is for another place. -/
theorem C112_refused (c : WCfg) (inner : List Ds) : wrap c inner = none ↔ ∃ x ∈ inner, ¬ SamePlace x.cfg c := by
  unfold wrap
  by_cases h : (inner.all fun d => d.cfg.eq c) = true
  · rw [if_pos h]
    constructor
    · intro e; cases e
    · rintro ⟨x, hx, hn⟩
      exact absurd (eq_iff.1 (List.all_eq_true.1 h x hx)) hn
  · rw [if_neg h]
    refine ⟨fun _ => ?_, fun _ => rfl⟩
    simp only [List.all_eq_true, Classical.not_forall] at h
    obtain ⟨x, hx, hn⟩ := h
    exact ⟨x, hx, fun hs => hn (eq_iff.2 hs)⟩

/-- **C112, the loader**: it uses the configuration of the dataset; another one can be given only for the same place. -/
theorem C112_loader (ds : WCfg) (passed : Option Passed) (c : WCfg) (h : loaderCfg ds passed = some c) :
    c = ds ∧ ∀ d, passed = some (.cfg d) → SamePlace d ds := by
  unfold loaderCfg at h
  cases passed with
  | none => cases h; exact ⟨rfl, fun d e => by cases e⟩
  | some p =>
    dsimp only at h
    split at h
    · cases h
    · rename_i hn
      cases h
      refine ⟨rfl, ?_⟩
      intro d e
      cases e
      simp only [Passed.ne, Bool.not_eq_true', Bool.not_eq_false] at hn
      exact eq_iff.1 hn

/-! ## Seeds -/

theorem comma_digits (n : Nat) : ',' ∉ Nat.toDigits 10 n := by
  intro h
  have := Nat.isDigit_of_mem_toDigits (b := 10) (by omega) (by omega) h
  revert this
  decide

theorem dash_digits (n : Nat) : '-' ∉ Nat.toDigits 10 n := by
  intro h
  have := Nat.isDigit_of_mem_toDigits (b := 10) (by omega) (by omega) h
  revert this
  decide

theorem digits_inj {a b : Nat} (h : Nat.toDigits 10 a = Nat.toDigits 10 b) : a = b := by
  have := congrArg (fun l => Nat.ofDigitChars 10 l 0) h
  simpa using this

theorem intText_inj {a b : Int} (h : intText a = intText b) : a = b := by
  cases a with
  | ofNat a =>
    cases b with
    | ofNat b => exact congrArg Int.ofNat (digits_inj h)
    | negSucc b =>
      simp only [intText] at h
      exact absurd (h ▸ List.mem_cons_self ..) (dash_digits a)
  | negSucc a =>
    cases b with
    | ofNat b =>
      simp only [intText] at h
      exact absurd (h ▸ List.mem_cons_self ..) (dash_digits b)
    | negSucc b =>
      simp only [intText, List.cons.injEq, true_and] at h
      have := digits_inj h
      have : a = b := by omega
      rw [this]

theorem split_comma {a b c d : List Char} (ha : ',' ∉ a) (hb : ',' ∉ b) (h : a ++ ',' :: c = b ++ ',' :: d) : a = b ∧ c = d := by
  induction a generalizing b with
  | nil =>
    cases b with
    | nil => exact ⟨rfl, by simpa using h⟩
    | cons x b =>
      simp only [List.nil_append, List.cons_append, List.cons.injEq] at h
      exact absurd (by rw [h.1]; exact List.mem_cons_self ..) hb
  | cons y a ih =>
    cases b with
    | nil =>
      simp only [List.nil_append, List.cons_append, List.cons.injEq] at h
      exact absurd (by rw [h.1]; exact List.mem_cons_self ..) ha
    | cons x b =>
      simp only [List.cons_append, List.cons.injEq] at h
      obtain ⟨h1, h2⟩ := ih (fun e => ha (List.mem_cons_of_mem _ e)) (fun e => hb (List.mem_cons_of_mem _ e)) h.2
      exact ⟨by rw [h.1, h1], h2⟩

/-- The numbers of the workers of a run are different. -/
theorem seedNumber_inj {a b : WCfg} {i j : Nat} (hw : a.numWorkers = b.numWorkers) (hi : i < max a.numWorkers 1) (hj : j < max b.numWorkers 1)
    (h : seedNumber a i = seedNumber b j) : a.rank = b.rank ∧ i = j := by
  unfold seedNumber at h
  by_cases h0 : a.numWorkers = 0
  · rw [if_pos h0, if_pos (hw ▸ h0)] at h
    exact ⟨h, by omega⟩
  · rw [if_neg h0, if_neg (hw ▸ h0), ← hw] at h
    have hi' : i < a.numWorkers := by omega
    have hj' : j < a.numWorkers := by omega
    have hr : a.rank = b.rank := by
      have h1 := congrArg (· / a.numWorkers) h
      have h2 : ∀ r k, k < a.numWorkers → (r * a.numWorkers + k) / a.numWorkers = r := by
        intro r k hk
        rw [Nat.mul_comm, Nat.mul_add_div (by omega), Nat.div_eq_of_lt hk, Nat.add_zero]
      rwa [h2 _ _ hi', h2 _ _ hj'] at h1
    exact ⟨hr, by rw [hr] at h; omega⟩

/-- **C112, seeds**: two workers of a run (of the same or of different ranks) and two seed offsets get different seeds, as far as the hash of different
texts is different; the same worker number and offset give the same seed. -/
theorem C112_seeds (hash : List Char → Nat) (a b : WCfg) (i j : Nat) (hw : a.numWorkers = b.numWorkers) (hi : i < max a.numWorkers 1) (hj : j < max b.numWorkers 1) :
    (Function.Injective hash → workerSeed hash a i = workerSeed hash b j → a.rank = b.rank ∧ i = j ∧ a.seedOffset = b.seedOffset) ∧
    (a.rank = b.rank → i = j → a.seedOffset = b.seedOffset → workerSeed hash a i = workerSeed hash b j) := by
  constructor
  · intro hh h
    have h1 := hh h
    obtain ⟨h2, h3⟩ := split_comma (comma_digits _) (comma_digits _) h1
    obtain ⟨h4, h5⟩ := seedNumber_inj hw hi hj (digits_inj h2)
    exact ⟨h4, h5, intText_inj h3⟩
  · intro h1 h2 h3
    unfold workerSeed seedNumber
    rw [h1, h2, h3, hw]

/-- The texts behind the seeds are different without any assumption on the hash. -/
theorem C112_texts (a b : WCfg) (i j : Nat) (hw : a.numWorkers = b.numWorkers) (hi : i < max a.numWorkers 1) (hj : j < max b.numWorkers 1)
    (h : ∀ hash : List Char → Nat, workerSeed hash a i = workerSeed hash b j) : a.rank = b.rank ∧ i = j ∧ a.seedOffset = b.seedOffset := by
  have key : Nat.toDigits 10 (seedNumber a i) ++ ',' :: intText a.seedOffset = Nat.toDigits 10 (seedNumber b j) ++ ',' :: intText b.seedOffset := by
    have := h (fun t => if t = Nat.toDigits 10 (seedNumber b j) ++ ',' :: intText b.seedOffset then 1 else 0)
    unfold workerSeed at this
    dsimp only at this
    rw [if_pos rfl] at this
    split at this
    · assumption
    · cases this
  obtain ⟨h2, h3⟩ := split_comma (comma_digits _) (comma_digits _) key
  obtain ⟨h4, h5⟩ := seedNumber_inj hw hi hj (digits_inj h2)
  exact ⟨h4, h5, intText_inj h3⟩

/-- **C112, the order of the seeds**: the worker process number `i` of a loader gets the seed of worker `i`. -/
theorem C112_user_seeds (hash : List Char → Nat) (c : WCfg) : (userSeeds hash c).length = c.numWorkers ∧
    ∀ i, i < c.numWorkers → (userSeeds hash c)[i]? = some (workerSeed hash c i) := by
  unfold userSeeds
  refine ⟨by simp, ?_⟩
  intro i hi
  rw [List.getElem?_map, List.getElem?_range hi]
  rfl

/-! ## Violations -/

/-- **C112** in full, for user code: the seeds of the worker processes are those of the configuration that was passed to the loader. -/
def C112_statement : Prop :=
  ∀ (hash : List Char → Nat) (ds passed c : WCfg), loaderCfg ds (some (.cfg passed)) = some c → userSeeds hash c = userSeeds hash passed

/-- **C112 is false of the code**: the comment at `seed_offset` (worker.py:48-56) says that the configuration passed to the loader seeds the generators of
user code. It is accepted and has no effect. -/
theorem C112_violated_offset : ¬ C112_statement := by
  intro h
  have := h (fun t => if t = ['0', ',', '0'] then 1 else 0) ⟨0, 1, 1, 0⟩ ⟨0, 1, 1, 5⟩ ⟨0, 1, 1, 0⟩ rfl
  revert this
  decide

/-- **C112 is false of the code for datasets with different seed offsets**: they are accepted as parts of one pipeline. -/
theorem C112_violated_mixed : ∃ d, Made d ∧ ∃ a ∈ d.all, ∃ b ∈ d.all, a.seedOffset ≠ b.seedOffset := by
  refine ⟨⟨⟨0, 1, 1, 0⟩, [⟨0, 1, 1, 0⟩, ⟨0, 1, 1, 1⟩, ⟨0, 1, 1, 2⟩]⟩, .wrap (c := ⟨0, 1, 1, 0⟩) (inner := [source ⟨0, 1, 1, 1⟩, source ⟨0, 1, 1, 2⟩]) ?_ rfl, ⟨0, 1, 1, 1⟩, by decide,
    ⟨0, 1, 1, 2⟩, by decide, by decide⟩
  intro x hx
  simp only [List.mem_cons, List.not_mem_nil, or_false] at hx
  rcases hx with rfl | rfl
  · exact .source _
  · exact .source _

/-- **C112 is false of the code for other objects**: anything is accepted as `worker_config` of a loader. -/
theorem C112_violated_other (ds : WCfg) : loaderCfg ds (some .other) = some ds := rfl

/-- **C112 is false of the code without worker processes**: the generators of user code are not seeded, whatever the offset is. -/
theorem C112_violated_main (hash : List Char → Nat) (c : WCfg) (h : c.numWorkers = 0) : userSeeds hash c = [] := by
  unfold userSeeds; rw [h]; rfl

/-- A blend of two datasets with two ranks of two workers can be made, one for another rank is refused. -/
example : (∃ d, wrap ⟨1, 2, 2, 7⟩ [source ⟨1, 2, 2, 7⟩, source ⟨1, 2, 2, 7⟩] = some d ∧ Made d) ∧ wrap ⟨1, 2, 2, 7⟩ [source ⟨0, 2, 2, 7⟩] = none ∧
    Nat.toDigits 10 (seedNumber ⟨1, 2, 2, 7⟩ 1) ++ ',' :: intText (-7) = ['3', ',', '-', '7'] := by
  refine ⟨⟨_, rfl, .wrap (c := ⟨1, 2, 2, 7⟩) (inner := [source ⟨1, 2, 2, 7⟩, source ⟨1, 2, 2, 7⟩]) ?_ rfl⟩, rfl, by decide⟩
  intro x hx
  simp only [List.mem_cons, List.not_mem_nil, or_false, or_self] at hx
  subst hx
  exact .source _

end Verif.Worker.Seed
