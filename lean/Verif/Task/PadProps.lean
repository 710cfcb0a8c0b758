import Verif.Task.PadModel

/-!
# C49: padding a batch preserves every sample, C60: batching keeps the fields
-/

namespace Verif.Task

variable {T α O : Type}

/-- The full statement of C49 for a batch of tensors and the result of stacking them: the result is rectangular (it has one entry for each
sample, and each further size is the largest of the sizes of the samples), each value of each sample is found unchanged at its index, and
everything else is the padding value. -/
structure Padded (P : DTypes T α) (batch : List (Tensor T α)) (r : Tensor T α) : Prop where
  count : r.shape.head? = some batch.length
  large : ∀ t ∈ batch, ∀ d n m, t.shape[d]? = some n → r.shape[d + 1]? = some m → n ≤ m
  tight : ∀ d m, r.shape[d + 1]? = some m → ∃ t ∈ batch, t.shape[d]? = some m
  dims : ∀ t ∈ batch, r.shape.length = t.shape.length + 1
  value : ∀ i t is, batch[i]? = some t → InShape is t.shape → InShape (i :: is) r.shape ∧ r.get (i :: is) = t.get is
  pad : ∀ i t is, batch[i]? = some t → InShape (i :: is) r.shape → ¬ InShape is t.shape → r.get (i :: is) = P.zero

/-! ## Helpers -/

theorem maxShape_length {a b : List Nat} (h : b.length = a.length) : (maxShape a b).length = a.length := by
  induction a generalizing b with
  | nil => simp [maxShape]
  | cons x a ih =>
    cases b with
    | nil => simp at h
    | cons y b => simp only [maxShape, List.length_cons]; rw [ih (by simpa using h)]

theorem maxShape_get {a b : List Nat} (h : b.length = a.length) (d : Nat) :
    (maxShape a b)[d]? = (a[d]?).bind fun x => (b[d]?).map fun y => max x y := by
  induction a generalizing b d with
  | nil => simp [maxShape]
  | cons x a ih =>
    cases b with
    | nil => simp at h
    | cons y b =>
      cases d with
      | zero => simp [maxShape]
      | succ d => simp only [maxShape, List.getElem?_cons_succ]; exact ih (by simpa using h) d

theorem maxSize_length (l : List (Tensor T α)) (m : List Nat) (h : ∀ c ∈ l, c.shape.length = m.length) :
    (l.foldl (fun m b => maxShape m b.shape) m).length = m.length := by
  induction l generalizing m with
  | nil => rfl
  | cons b l ih =>
    have hb := maxShape_length (h b (by simp))
    simp only [List.foldl_cons]
    rw [ih _ (fun c hc => by rw [hb]; exact h c (by simp [hc])), hb]

theorem maxSize_ge (l : List (Tensor T α)) (m : List Nat) (h : ∀ c ∈ l, c.shape.length = m.length) (d x : Nat)
    (hx : (l.foldl (fun m b => maxShape m b.shape) m)[d]? = some x) :
    (∀ n, m[d]? = some n → n ≤ x) ∧ (∀ c ∈ l, ∀ n, c.shape[d]? = some n → n ≤ x) ∧
      (m[d]? = some x ∨ ∃ c ∈ l, c.shape[d]? = some x) := by
  induction l generalizing m with
  | nil =>
    simp only [List.foldl_nil] at hx
    refine ⟨fun n hn => ?_, by simp, Or.inl hx⟩
    rw [hx] at hn
    simp only [Option.some.injEq] at hn
    omega
  | cons b l ih =>
    have hb := maxShape_length (h b (by simp))
    simp only [List.foldl_cons] at hx
    obtain ⟨h1, h2, h3⟩ := ih _ (fun c hc => by rw [hb]; exact h c (by simp [hc])) hx
    have hg := maxShape_get (h b (by simp)) d
    have hlt : d < m.length := by
      have := (List.getElem?_eq_some_iff.1 hx).1
      rw [maxSize_length _ _ (fun c hc => by rw [hb]; exact h c (by simp [hc])), hb] at this
      exact this
    have hlb : d < b.shape.length := by rw [h b (by simp)]; exact hlt
    rw [List.getElem?_eq_getElem hlt, List.getElem?_eq_getElem hlb] at hg
    simp only [Option.bind_some, Option.map_some] at hg
    have hmax := h1 _ hg
    refine ⟨?_, ?_, ?_⟩
    · intro n hn
      rw [List.getElem?_eq_getElem hlt] at hn
      simp only [Option.some.injEq] at hn
      omega
    · intro c hc n hn
      rcases List.mem_cons.1 hc with rfl | hc
      · rw [List.getElem?_eq_getElem hlb] at hn
        simp only [Option.some.injEq] at hn
        omega
      · exact h2 c hc n hn
    · rcases h3 with h3 | ⟨c, hc, h3⟩
      · rw [hg] at h3
        simp only [Option.some.injEq] at h3
        by_cases hle : m[d] ≤ b.shape[d]
        · right
          refine ⟨b, by simp, ?_⟩
          rw [List.getElem?_eq_getElem hlb, ← h3]
          congr 1
          omega
        · left
          rw [List.getElem?_eq_getElem hlt, ← h3]
          congr 1
          omega
      · exact Or.inr ⟨c, by simp [hc], h3⟩

theorem inShape_mono {is a b : List Nat} (hl : a.length = b.length) (h : ∀ (d n m : Nat), a[d]? = some n → b[d]? = some m → n ≤ m)
    (hi : InShape is a) : InShape is b := by
  induction is generalizing a b with
  | nil =>
    cases a with
    | nil => cases b with | nil => trivial | cons => simp at hl
    | cons => exact absurd hi (by simp [InShape])
  | cons i is ih =>
    cases a with
    | nil => exact absurd hi (by simp [InShape])
    | cons x a =>
      cases b with
      | nil => simp at hl
      | cons y b =>
        refine ⟨Nat.lt_of_lt_of_le hi.1 (h 0 x y rfl rfl), ih (by simpa using hl) (fun d n m h1 h2 => ?_) hi.2⟩
        exact h (d + 1) n m (by simpa using h1) (by simpa using h2)

theorem stackGet_at (P : DTypes T α) (dt : T) (l : List (Tensor T α)) (i : Nat) (is : List Nat) (t : Tensor T α) (h : l[i]? = some t) :
    stackGet P dt l (i :: is) = if InShape is t.shape then P.conv dt (t.get is) else P.zero := by
  induction l generalizing i with
  | nil => simp at h
  | cons b l ih =>
    cases i with
    | zero => simp only [List.getElem?_cons_zero, Option.some.injEq] at h; subst h; rfl
    | succ i => exact ih i (by simpa using h)

/-! ## Theorems -/

/-- **C49**, partial: stacking succeeds exactly if there is a sample and all have the same number of dimensions; the result is padded as
specified, provided the values are representable in the type of the first tensor. Missing: batches of mixed types, where values are
changed (`C49_violated`). -/
theorem C49_padded_partial (P : DTypes T α) (b : Tensor T α) (l : List (Tensor T α))
    (hconv : ∀ t ∈ b :: l, ∀ is, InShape is t.shape → P.conv b.dtype (t.get is) = t.get is) (r : Tensor T α)
    (h : padStack P (b :: l) = some r) : Padded P (b :: l) r := by
  simp only [padStack] at h
  split at h
  · rename_i hall
    have hdim : ∀ c ∈ l, c.shape.length = b.shape.length := by
      intro c hc
      simpa using List.all_eq_true.1 hall c hc
    injection h with h
    subst h
    have hlen : (maxSize b l).length = b.shape.length := maxSize_length l b.shape hdim
    have hdim' : ∀ t ∈ b :: l, t.shape.length = b.shape.length := by
      intro t ht
      rcases List.mem_cons.1 ht with rfl | ht
      · rfl
      · exact hdim t ht
    have hlarge : ∀ t ∈ b :: l, ∀ (d n m : Nat), t.shape[d]? = some n → (maxSize b l)[d]? = some m → n ≤ m := by
      intro t ht d n m hn hm
      obtain ⟨h1, h2, -⟩ := maxSize_ge l b.shape hdim d m hm
      rcases List.mem_cons.1 ht with rfl | ht
      · exact h1 n hn
      · exact h2 t ht n hn
    refine ⟨by simp, ?_, ?_, ?_, ?_, ?_⟩
    · intro t ht d n m hn hm
      exact hlarge t ht d n m hn (by simpa using hm)
    · intro d m hm
      obtain ⟨-, -, h3⟩ := maxSize_ge l b.shape hdim d m (show (maxSize b l)[d]? = some m by simpa using hm)
      rcases h3 with h3 | ⟨c, hc, h3⟩
      · exact ⟨b, by simp, h3⟩
      · exact ⟨c, by simp [hc], h3⟩
    · intro t ht
      simp [hlen, hdim' t ht]
    · intro i t is hi his
      have ht : t ∈ b :: l := List.mem_of_getElem? hi
      have hil : i < l.length + 1 := by simpa using (List.getElem?_eq_some_iff.1 hi).1
      refine ⟨⟨hil, inShape_mono (by rw [hdim' t ht, hlen]) (hlarge t ht) his⟩, ?_⟩
      show stackGet P b.dtype (b :: l) (i :: is) = _
      rw [stackGet_at P _ _ _ _ t hi, if_pos his, hconv t ht is his]
    · intro i t is hi _ hnot
      show stackGet P b.dtype (b :: l) (i :: is) = _
      rw [stackGet_at P _ _ _ _ t hi, if_neg hnot]
  · cases h

/-- Stacking succeeds exactly if there is a sample and all have the same number of dimensions. -/
theorem C49_succeeds (P : DTypes T α) (batch : List (Tensor T α)) :
    (padStack P batch).isSome ↔ batch ≠ [] ∧ ∀ s ∈ batch, ∀ t ∈ batch, s.shape.length = t.shape.length := by
  cases batch with
  | nil => simp [padStack]
  | cons b l =>
    simp only [padStack]
    constructor
    · intro h
      split at h
      · rename_i hall
        refine ⟨by simp, ?_⟩
        have h1 : ∀ c ∈ b :: l, c.shape.length = b.shape.length := by
          intro c hc
          rcases List.mem_cons.1 hc with rfl | hc
          · rfl
          · simpa using List.all_eq_true.1 hall c hc
        intro s hs t ht
        rw [h1 s hs, h1 t ht]
      · simp at h
    · rintro ⟨-, h⟩
      rw [if_pos]
      · rfl
      · rw [List.all_eq_true]
        intro c hc
        simpa using h c (by simp [hc]) b (by simp)

/-- Element types for the examples: whole numbers, and numbers with two digits after the point, both as hundredths; whole numbers drop the digits. -/
def exTypes : DTypes Bool Nat := ⟨0, fun float x => if float then x else x / 100 * 100⟩

/-- A 2x1 and a 1x3 tensor -/
def exA : Tensor Bool Nat := ⟨true, [2, 1], fun is => 110 + is.headD 0⟩
def exB : Tensor Bool Nat := ⟨true, [1, 3], fun is => 150 + is.getLastD 0⟩

/-- The hypotheses of `C49_padded_partial` are met. -/
example : ∃ r, padStack exTypes [exA, exB] = some r ∧ r.shape = [2, 2, 3] ∧ Padded exTypes [exA, exB] r :=
  ⟨_, rfl, rfl, C49_padded_partial exTypes exA [exB] (by
    intro t ht is _
    simp only [List.mem_cons, List.not_mem_nil, or_false] at ht
    rcases ht with rfl | rfl <;> rfl) _ rfl⟩

/-- **C49 does not hold** for tensors of different types: the type of the first tensor is used, and 1.50 becomes 1. -/
theorem C49_violated : ∃ (batch : List (Tensor Bool Nat)) (r : Tensor Bool Nat),
    (∀ t ∈ batch, ∀ is, exTypes.conv t.dtype (t.get is) = t.get is) ∧
    padStack exTypes batch = some r ∧ ¬ Padded exTypes batch r := by
  refine ⟨[⟨false, [1], fun _ => 200⟩, ⟨true, [1], fun _ => 150⟩], _, ?_, rfl, ?_⟩
  · intro t ht is
    simp only [List.mem_cons, List.not_mem_nil, or_false] at ht
    rcases ht with rfl | rfl <;> simp [exTypes]
  · intro h
    have := (h.value 1 _ [0] rfl (by decide)).2
    exact absurd this (by decide)

/-! ## C60 -/

/-- The part of a value at a path of field names -/
def Val.at : Val T α O → List String → Option (Val T α O)
  | v, [] => some v
  | v, k :: p => (v.field k).bind (·.at p)

/-- The field of a batch -/
def BFields.get : BFields T α O → String → Option (BVal T α O)
  | .nil, _ => none
  | .cons k v l, x => if k = x then some v else l.get x

def BVal.field : BVal T α O → String → Option (BVal T α O)
  | .struct l, x => l.get x
  | _, _ => none

def BVal.at : BVal T α O → List String → Option (BVal T α O)
  | v, [] => some v
  | v, k :: p => (v.field k).bind (·.at p)

theorem collect_spec {β γ : Type} {f : β → Option γ} {l : List β} {m : List γ} (h : collect f l = some m) :
    m.length = l.length ∧ ∀ i : Nat, m[i]? = (l[i]?).bind f := by
  induction l generalizing m with
  | nil => simp [collect] at h; subst h; simp
  | cons b l ih =>
    simp only [collect] at h
    split at h
    · rename_i c m' h1 h2
      injection h with h
      subst h
      obtain ⟨h3, h4⟩ := ih h2
      refine ⟨by simp [h3], ?_⟩
      intro i
      cases i with
      | zero => simp [h1]
      | succ i => simpa using h4 i
    · cases h

theorem collect_comp {β γ δ : Type} {f : β → Option γ} {g : γ → Option δ} {l : List β} {m : List γ} {n : List δ}
    (h1 : collect f l = some m) (h2 : collect g m = some n) : collect (fun b => (f b).bind g) l = some n := by
  induction l generalizing m n with
  | nil => simp [collect] at h1; subst h1; simpa [collect] using h2
  | cons b l ih =>
    simp only [collect] at h1
    split at h1
    · rename_i c m' hc hm
      injection h1 with h1
      subst h1
      simp only [collect] at h2
      split at h2
      · rename_i e n' he hn
        injection h2 with h2
        subst h2
        simp [collect, hc, he, ih hm hn]
      · cases h2
    · cases h1

theorem collect_some {β : Type} (l : List β) : collect (fun b => some b) l = some l := by
  induction l with
  | nil => rfl
  | cons b l ih => simp [collect, ih]

theorem genericFields_get (comb : List (Tensor T α) → Option (Tensor T α)) (l : Fields T α O) (rest : List (Val T α O)) (fs : BFields T α O)
    (h : genericFields comb l rest = some fs) (k : String) (v : Val T α O) (hv : l.get k = some v) :
    ∃ vs b, collect (fun x => x.field k) rest = some vs ∧ genericWith comb v vs = some b ∧ fs.get k = some b := by
  induction l using Fields.rec (motive_1 := fun _ => True) generalizing fs with
  | tensor _ => trivial
  | struct _ _ => trivial
  | other _ => trivial
  | nil => cases hv
  | cons k' v' l _ ih =>
    rw [genericFields] at h
    split at h
    · rename_i vs fs' h1 h2
      split at h
      · rename_i b hb
        injection h with h
        subst h
        simp only [Fields.get] at hv
        by_cases hk : k' = k
        · subst hk
          rw [if_pos rfl] at hv
          injection hv with hv
          subst hv
          exact ⟨vs, b, h1, hb, by simp [BFields.get]⟩
        · rw [if_neg hk] at hv
          obtain ⟨vs', b', h3, h4, h5⟩ := ih fs' h2 hv
          exact ⟨vs', b', h3, h4, by simp [BFields.get, hk, h5]⟩
      · cases h
    · cases h

/-- `C60_fields_partial` for any way to combine tensors -/
theorem genericWith_at (comb : List (Tensor T α) → Option (Tensor T α)) (path : List String) (v : Val T α O) (rest : List (Val T α O))
    (b : BVal T α O) (h : genericWith comb v rest = some b) (x : Val T α O) (hx : v.at path = some x) :
    ∃ xs bx, collect (fun w => w.at path) rest = some xs ∧ genericWith comb x xs = some bx ∧ b.at path = some bx := by
  induction path generalizing v rest b with
  | nil =>
    simp only [Val.at, Option.some.injEq] at hx
    subst hx
    exact ⟨rest, b, collect_some rest, h, rfl⟩
  | cons k p ih =>
    cases v with
    | tensor t => simp [Val.at, Val.field] at hx
    | other o => simp [Val.at, Val.field] at hx
    | struct l =>
      simp only [Val.at, Val.field] at hx
      cases hk : l.get k with
      | none => simp [hk] at hx
      | some y =>
        simp only [hk, Option.bind_some] at hx
        rw [genericWith] at h
        cases hf : genericFields comb l rest with
        | none => simp [hf] at h
        | some fs =>
          rw [hf] at h
          simp only [Option.map_some, Option.some.injEq] at h
          subst h
          obtain ⟨vs, b', h1, h2, h3⟩ := genericFields_get comb l rest fs hf k y hk
          obtain ⟨xs, bx, h4, h5, h6⟩ := ih y vs b' h2 hx
          refine ⟨xs, bx, collect_comp h1 h4, h5, ?_⟩
          simp [BVal.at, BVal.field, h3, h6]

/-- `C60_leaves_partial` for any way to combine tensors -/
theorem genericWith_leaves (comb : List (Tensor T α) → Option (Tensor T α)) (path : List String) (v : Val T α O) (rest : List (Val T α O))
    (b : BVal T α O) (h : genericWith comb v rest = some b) :
    (∀ t, v.at path = some (.tensor t) → ∃ ts r, collect (fun w => (w.at path).bind Val.asTensor) rest = some ts ∧
      comb (t :: ts) = some r ∧ b.at path = some (.tensor r)) ∧
    (∀ o, v.at path = some (.other o) → ∃ xs, collect (fun w => w.at path) rest = some xs ∧
      b.at path = some (.list (.other o :: xs))) := by
  constructor
  · intro t ht
    obtain ⟨xs, bx, h1, h2, h3⟩ := genericWith_at comb path v rest b h _ ht
    rw [genericWith] at h2
    cases hc : collect Val.asTensor xs with
    | none => simp [hc] at h2
    | some ts =>
      rw [hc] at h2
      simp only at h2
      cases hp : comb (t :: ts) with
      | none => simp [hp] at h2
      | some r =>
        rw [hp] at h2
        simp only [Option.map_some, Option.some.injEq] at h2
        subst h2
        exact ⟨ts, r, collect_comp h1 hc, hp, h3⟩
  · intro o ho
    obtain ⟨xs, bx, h1, h2, h3⟩ := genericWith_at comb path v rest b h _ ho
    rw [genericWith] at h2
    simp only [Option.some.injEq] at h2
    subst h2
    exact ⟨xs, h1, h3⟩

/-- **C60**, partial (fields that only later samples have are missing, `C60_violated`): if a batch is made, then for every path of fields of the first sample, all samples have a part at this path, and the part of the
batch at this path is made of exactly these parts, in the order of the samples. -/
theorem C60_fields_partial (P : DTypes T α) (path : List String) (v : Val T α O) (rest : List (Val T α O)) (b : BVal T α O)
    (h : genericBatch P v rest = some b) (x : Val T α O) (hx : v.at path = some x) :
    ∃ xs bx, collect (fun w => w.at path) rest = some xs ∧ genericBatch P x xs = some bx ∧ b.at path = some bx :=
  genericWith_at (padStack P) path v rest b h x hx

/-- At a tensor the part of the batch is the padded stack of the tensors, at anything else the list. -/
theorem C60_leaves_partial (P : DTypes T α) (path : List String) (v : Val T α O) (rest : List (Val T α O)) (b : BVal T α O)
    (h : genericBatch P v rest = some b) :
    (∀ t, v.at path = some (.tensor t) → ∃ ts r, collect (fun w => (w.at path).bind Val.asTensor) rest = some ts ∧
      padStack P (t :: ts) = some r ∧ b.at path = some (.tensor r)) ∧
    (∀ o, v.at path = some (.other o) → ∃ xs, collect (fun w => w.at path) rest = some xs ∧
      b.at path = some (.list (.other o :: xs))) :=
  genericWith_leaves (padStack P) path v rest b h

/-- A batch of two samples with a tensor and a nested field: the hypotheses are met. -/
example : ∃ b, genericBatch (O := String) exTypes
    (.struct (.cons "img" (.tensor exA) (.cons "meta" (.struct (.cons "name" (.other "x") .nil)) .nil)))
    [.struct (.cons "meta" (.struct (.cons "name" (.other "y") .nil)) (.cons "img" (.tensor exB) .nil))] = some b ∧
    b.at ["meta", "name"] = some (.list [.other "x", .other "y"]) :=
  ⟨_, rfl, rfl⟩

/-- **C60 does not hold** for fields that the first sample does not have: they are dropped without an error. -/
theorem C60_violated : ∃ (v w : Val Bool Nat String) (b : BVal Bool Nat String),
    genericBatch exTypes v [w] = some b ∧ w.at ["b"] = some (.other "kept?") ∧ b.at ["b"] = none :=
  ⟨.struct (.cons "a" (.other "1") .nil), .struct (.cons "a" (.other "2") (.cons "b" (.other "kept?") .nil)), _, rfl, rfl, rfl⟩

end Verif.Task
