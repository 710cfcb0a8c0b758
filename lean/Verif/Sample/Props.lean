import Verif.Sample.Model

/-!
# C91: samples made from other samples keep their fields
-/

namespace Verif.Sample

variable {V : Type}

/-! ## Specification -/

/-- An instance of its class: exactly the declared fields have values. -/
def Inst.Valid (x : Inst V) : Prop :=
  (x.fields.map (·.1)).Nodup ∧ (x.cls.kind = .dataclass ∨ x.cls.kind = .namedtuple → x.fields.map (·.1) = x.cls.decls.map (·.name))

/-- The value a class gives to a field that is not passed. -/
def Cls.defaultOf (c : Cls V) (f : Name) : Option V := ((c.decls.find? (·.name = f)).map (·.default)).join

/-- The names of the fields of a class. -/
def Cls.names (c : Cls V) : List Name := c.decls.map (·.name)

/-- `r` is the instance of `c` that has, in each field, the value of `val`, or else the default of the field. -/
def Made (c : Cls V) (val : Name → Option V) (r : Inst V) : Prop :=
  r.cls = c ∧ r.fields.map (·.1) = c.names ∧ ∀ f ∈ c.names, get r.fields f = (val f).or (c.defaultOf f)

/-- The last value in a list of optional ones. -/
def lastOf : List (Option V) → Option V
  | [] => none
  | a :: l => (lastOf l).or a

/-- What a joined sample has in a field: in the key and the other fields of all samples, what the primary sample has; in any other field what the last
part has that has this field. -/
def joinedValue (args : List (Option (Inst V))) (f : Name) : Option V :=
  if f ∈ baseFields then (args.head?.join).bind fun p => get p.fields f
  else lastOf (args.map fun a => a.bind fun a => get a.fields f)

/-! ## Lemmas -/

theorem get_cons (p : Name × V) (l : List (Name × V)) (f : Name) : get (p :: l) f = if p.1 = f then some p.2 else get l f := by
  by_cases h : p.1 = f <;> simp [get, List.find?_cons, h]

theorem get_append (l m : List (Name × V)) (f : Name) : get (l ++ m) f = (get l f).or (get m f) := by
  induction l with
  | nil => simp [get]
  | cons p l ih =>
    rw [List.cons_append, get_cons, get_cons, ih]
    by_cases h : p.1 = f <;> simp [h]

theorem get_isSome {l : List (Name × V)} {f : Name} : (get l f).isSome = true ↔ f ∈ l.map (·.1) := by
  induction l with
  | nil => simp [get]
  | cons p l ih =>
    rw [get_cons]
    by_cases h : p.1 = f
    · simp [h]
    · simp only [h, if_false, ih, List.map_cons, List.mem_cons]
      constructor
      · exact .inr
      · rintro (h' | h')
        · exact absurd h'.symm h
        · exact h'

theorem get_map_other (l : List (Name × V)) (f g : Name) (v : V) (h : f ≠ g) :
    get (l.map fun p => if p.1 = f then (f, v) else p) g = get l g := by
  induction l with
  | nil => rfl
  | cons p l ih =>
    rw [List.map_cons, get_cons, get_cons, ih]
    by_cases hp : p.1 = f
    · have : ¬ p.1 = g := fun he => h (hp.symm.trans he)
      simp [hp, h]
    · simp [hp]

theorem get_map_same (l : List (Name × V)) (f : Name) (v : V) (h : l.any (·.1 = f) = true) :
    get (l.map fun p => if p.1 = f then (f, v) else p) f = some v := by
  induction l with
  | nil => simp at h
  | cons p l ih =>
    rw [List.map_cons, get_cons]
    by_cases hp : p.1 = f
    · simp [hp]
    · simp only [hp, if_false]
      refine ih ?_
      simpa [hp] using h

theorem get_put (l : List (Name × V)) (f g : Name) (v : V) : get (put l f v) g = if f = g then some v else get l g := by
  unfold put
  by_cases h : l.any (·.1 = f) = true
  · rw [if_pos h]
    by_cases hg : f = g
    · subst hg; simp [get_map_same l f v h]
    · simp [hg, get_map_other l f g v hg]
  · rw [if_neg h, get_append, get_cons]
    by_cases hg : f = g
    · subst hg
      have : get l f = none := by
        cases hn : get l f with
        | none => rfl
        | some w =>
          have : f ∈ l.map (·.1) := get_isSome.1 (by simp [hn])
          obtain ⟨p, hp, hpf⟩ := List.mem_map.1 this
          exact absurd (List.any_eq_true.2 ⟨p, hp, by simpa using hpf⟩) h
      simp [this]
    · simp [hg, get]

theorem mem_put (l : List (Name × V)) (f g : Name) (v : V) : g ∈ (put l f v).map (·.1) ↔ g = f ∨ g ∈ l.map (·.1) := by
  rw [← get_isSome, ← get_isSome, get_put]
  by_cases h : f = g
  · simp [h]
  · simp [h, Ne.symm h]

theorem mapM_decls (c : List (Decl V)) (hn : (c.map (·.name)).Nodup) (val : Name → Option V) (fs : List (Name × V)) :
    (c.mapM fun d => ((val d.name).or d.default).map fun v => (d.name, v)) = some fs ↔
      fs.map (·.1) = c.map (·.name) ∧ ∀ d ∈ c, get fs d.name = (val d.name).or d.default := by
  induction c generalizing fs with
  | nil =>
    show some [] = some fs ↔ _
    cases fs <;> simp
  | cons d c ih =>
    simp only [List.map_cons, List.nodup_cons] at hn
    rw [List.mapM_cons]
    constructor
    · intro h
      cases hv : (val d.name).or d.default with
      | none => rw [hv] at h; simp at h
      | some v =>
        rw [hv] at h
        cases hm : c.mapM fun d => ((val d.name).or d.default).map fun v => (d.name, v) with
        | none => rw [hm] at h; simp at h
        | some gs =>
          rw [hm] at h
          simp at h
          subst h
          obtain ⟨h1, h2⟩ := (ih hn.2 gs).1 hm
          refine ⟨by simp [h1], ?_⟩
          intro e he
          rcases List.mem_cons.1 he with rfl | he
          · simp [get_cons, hv]
          · have hne : d.name ≠ e.name := fun hde => hn.1 (hde ▸ List.mem_map_of_mem he)
            rw [get_cons]
            simp [hne, h2 e he]
    · rintro ⟨h1, h2⟩
      cases fs with
      | nil => simp at h1
      | cons p gs =>
        simp only [List.map_cons, List.cons.injEq] at h1
        have h3 := h2 d (by simp)
        rw [get_cons, if_pos h1.1] at h3
        have : (c.mapM fun d => ((val d.name).or d.default).map fun v => (d.name, v)) = some gs := by
          refine (ih hn.2 gs).2 ⟨h1.2, fun e he => ?_⟩
          have hne : ¬ p.1 = e.name := fun hde => hn.1 (h1.1 ▸ hde ▸ List.mem_map_of_mem he)
          rw [← h2 e (by simp [he]), get_cons, if_neg hne]
        rw [← h3, this]
        simp [← h1.1]

theorem defaultOf_mem {c : Cls V} (hn : c.names.Nodup) {d : Decl V} (hd : d ∈ c.decls) : c.defaultOf d.name = d.default := by
  unfold Cls.defaultOf
  have : c.decls.find? (·.name = d.name) = some d := by
    unfold Cls.names at hn
    revert hn hd
    generalize c.decls = l
    intro hn hd
    induction l with
    | nil => simp at hd
    | cons e l ih =>
      simp only [List.map_cons, List.nodup_cons] at hn
      rcases List.mem_cons.1 hd with rfl | hd
      · simp
      · have : ¬ e.name = d.name := fun he => hn.1 (he ▸ List.mem_map_of_mem hd)
        simp [this, ih hn.2 hd]
  simp [this]

/-- When a constructor call succeeds, and with what. -/
theorem construct_iff {c : Cls V} (hn : c.names.Nodup) {kw : List (Name × V)} {r : Inst V} :
    construct c kw = some r ↔ (∀ f ∈ kw.map (·.1), f ∈ c.names) ∧ Made c (get kw) r := by
  have hall : (kw.all fun p => c.decls.any (·.name = p.1)) = true ↔ ∀ f ∈ kw.map (·.1), f ∈ c.names := by
    simp only [List.all_eq_true, List.any_eq_true, decide_eq_true_eq, Cls.names, List.mem_map]
    constructor
    · rintro h f ⟨p, hp, rfl⟩; exact h p hp
    · intro h p hp; exact h p.1 ⟨p, hp, rfl⟩
  unfold construct
  by_cases h : (kw.all fun p => c.decls.any (·.name = p.1)) = true
  · rw [if_pos h]
    simp only [Option.map_eq_some_iff, mapM_decls c.decls hn (get kw)]
    constructor
    · rintro ⟨fs, ⟨h1, h2⟩, rfl⟩
      refine ⟨hall.1 h, rfl, h1, fun f hf => ?_⟩
      obtain ⟨d, hd, rfl⟩ := List.mem_map.1 hf
      rw [defaultOf_mem hn hd]
      exact h2 d hd
    · rintro ⟨_, h1, h2, h3⟩
      refine ⟨r.fields, ⟨h2, fun d hd => ?_⟩, ?_⟩
      · rw [h3 d.name (List.mem_map_of_mem hd), defaultOf_mem hn hd]
      · rw [← h1]
  · rw [if_neg h]
    constructor
    · intro h'; cases h'
    · rintro ⟨h', _⟩; exact absurd (hall.2 h') h

theorem Made.congr {c : Cls V} {v w : Name → Option V} (h : ∀ f, v f = w f) {r : Inst V} : Made c v r ↔ Made c w r := by
  have : v = w := funext h
  rw [this]

/-! ## The theorems -/

theorem foldl_extend (src : List (Name × V)) (kw : List (Name × V)) (f : Name) :
    get (src.foldl (fun kw p => if (get kw p.1).isSome then kw else put kw p.1 p.2) kw) f = (get kw f).or (get src f) := by
  induction src generalizing kw with
  | nil => simp [get]
  | cons p src ih =>
    rw [List.foldl_cons, ih, get_cons]
    by_cases h : (get kw p.1).isSome = true
    · rw [if_pos h]
      by_cases hp : p.1 = f
      · subst hp
        obtain ⟨v, hv⟩ := Option.isSome_iff_exists.1 h
        simp [hv]
      · simp [hp]
    · rw [if_neg h, get_put]
      by_cases hp : p.1 = f
      · subst hp
        have : get kw p.1 = none := by simpa using h
        simp [this]
      · simp [hp]

/-- **C91.** `extend`: the result has the fields that are given, and in all other fields what the extended object has (or else the default). It fails
only if the class is not derived from the class of the object, a name is given that is no field, or a new field has no value. -/
theorem C91_extend (c : Cls V) (hc : c.names.Nodup) (hk : c.kind = .dataclass) (src : Inst V) (kw : List (Name × V)) (r : Inst V) :
    extend c src kw = some r ↔
      src.cls.name ∈ c.bases ∧ (∀ f ∈ kw.map (·.1) ++ src.fields.map (·.1), f ∈ c.names) ∧
        Made c (fun f => (get kw f).or (get src.fields f)) r := by
  unfold extend
  by_cases hb : src.cls.name ∈ c.bases
  · simp only [hk, hb, and_self, if_true, true_and]
    rw [construct_iff hc, Made.congr (foldl_extend src.fields kw)]
    have : ∀ f, f ∈ (src.fields.foldl (fun kw p => if (get kw p.1).isSome then kw else put kw p.1 p.2) kw).map (·.1) ↔
        f ∈ kw.map (·.1) ++ src.fields.map (·.1) := by
      intro f
      rw [← get_isSome, foldl_extend, List.mem_append, ← get_isSome, ← get_isSome]
      cases get kw f <;> simp
    simp only [this]
  · simp [hb]

theorem baseFields_get (l : List (Name × V)) (bs : List (Name × V)) :
    (baseFields.mapM fun f => (get l f).map fun v => (f, v)) = some bs ↔
      bs.map (·.1) = baseFields ∧ ∀ f ∈ baseFields, get bs f = get l f ∧ (get l f).isSome = true := by
  have h := mapM_decls (baseFields.map fun f => (⟨f, none⟩ : Decl V)) (by rw [List.map_map]; show (baseFields.map id).Nodup; rw [List.map_id]; decide) (get l) bs
  rw [List.mapM_map] at h
  simp only [Option.or_none, List.map_map, Function.comp_def, List.map_id', List.mem_map, forall_exists_index, and_imp,
    forall_apply_eq_imp_iff₂] at h
  refine h.trans ⟨fun ⟨h1, h2⟩ => ⟨h1, fun f hf => ⟨h2 f hf, ?_⟩⟩, fun ⟨h1, h2⟩ => ⟨h1, fun f hf => (h2 f hf).1⟩⟩
  rw [← h2 f hf, get_isSome, h1]
  exact hf

/-- **C91.** `derive_from`: the result has the key, the restore key and the subflavors of the sample it is derived from, and the given fields. -/
theorem C91_derive_from (c : Cls V) (hc : c.names.Nodup) (base : Inst V) (kw : List (Name × V)) (r : Inst V) :
    deriveFrom c base kw = some r ↔
      (∀ f ∈ baseFields, f ∈ base.fields.map (·.1) ∧ f ∈ c.names ∧ f ∉ kw.map (·.1)) ∧ (∀ f ∈ kw.map (·.1), f ∈ c.names) ∧
        Made c (fun f => if f ∈ baseFields then get base.fields f else get kw f) r := by
  unfold deriveFrom
  cases hm : baseFields.mapM fun f => (get base.fields f).map fun v => (f, v) with
  | none =>
    simp only
    constructor
    · intro h; cases h
    · rintro ⟨h, _⟩
      exfalso
      have hex : ∃ bs : List (Name × V), (baseFields.mapM fun f => (get base.fields f).map fun v => (f, v)) = some bs := by
        have : ∀ l : List Name, (∀ f ∈ l, f ∈ base.fields.map (·.1)) → ∃ bs : List (Name × V), (l.mapM fun f => (get base.fields f).map fun v => (f, v)) = some bs := by
          intro l
          induction l with
          | nil => intro _; exact ⟨[], rfl⟩
          | cons a l ih =>
            intro hl
            obtain ⟨v, hv⟩ := Option.isSome_iff_exists.1 (get_isSome.2 (hl a (by simp)))
            obtain ⟨bs, hbs⟩ := ih fun f hf => hl f (by simp [hf])
            exact ⟨(a, v) :: bs, by rw [List.mapM_cons, hbs, hv]; rfl⟩
        exact this _ fun f hf => (h f hf).1
      obtain ⟨bs, hbs⟩ := hex
      rw [hbs] at hm
      cases hm
  | some bs =>
    obtain ⟨h1, h2⟩ := (baseFields_get _ _).1 hm
    simp only
    have hany : (kw.any fun p => decide (p.1 ∈ baseFields)) = true ↔ ∃ f ∈ baseFields, f ∈ kw.map (·.1) := by
      simp only [List.any_eq_true, decide_eq_true_eq, List.mem_map]
      constructor
      · rintro ⟨p, hp, hf⟩; exact ⟨p.1, hf, p, hp, rfl⟩
      · rintro ⟨f, hf, p, hp, rfl⟩; exact ⟨p, hp, hf⟩
    have hget : ∀ f, get (bs ++ kw) f = if f ∈ baseFields then get base.fields f else get kw f := by
      intro f
      rw [get_append]
      by_cases hf : f ∈ baseFields
      · rw [if_pos hf]
        obtain ⟨h3, h4⟩ := h2 f hf
        obtain ⟨v, hv⟩ := Option.isSome_iff_exists.1 h4
        simp [h3, hv]
      · rw [if_neg hf]
        have : get bs f = none := by
          cases hg : get bs f with
          | none => rfl
          | some v => exact absurd (h1 ▸ get_isSome.1 (by simp [hg])) hf
        simp [this]
    by_cases hk : (kw.any fun p => decide (p.1 ∈ baseFields)) = true
    · rw [if_pos hk]
      obtain ⟨f, hf, hf'⟩ := hany.1 hk
      constructor
      · intro h; cases h
      · rintro ⟨h, _⟩; exact absurd hf' (h f hf).2.2
    · rw [if_neg hk, construct_iff hc, Made.congr hget, List.map_append, h1]
      simp only [List.mem_append]
      constructor
      · rintro ⟨h, hmade⟩
        refine ⟨fun f hf => ⟨get_isSome.1 (h2 f hf).2, h f (.inl hf), fun hf' => hk (hany.2 ⟨f, hf, hf'⟩)⟩, fun f hf => h f (.inr hf), hmade⟩
      · rintro ⟨h, h', hmade⟩
        exact ⟨fun f hf => hf.elim (fun hf => (h f hf).2.1) (h' f), hmade⟩

theorem foldl_put (l acc : List (Name × V)) (hl : (l.map (·.1)).Nodup) (f : Name) :
    get (l.foldl (fun acc p => put acc p.1 p.2) acc) f = (get l f).or (get acc f) := by
  induction l generalizing acc with
  | nil => simp [get]
  | cons p l ih =>
    simp only [List.map_cons, List.nodup_cons] at hl
    rw [List.foldl_cons, ih _ hl.2, get_put, get_cons]
    by_cases h : p.1 = f
    · subst h
      have : get l p.1 = none := by
        cases hg : get l p.1 with
        | none => rfl
        | some v => exact absurd (get_isSome.1 (by simp [hg])) hl.1
      simp [this]
    · simp [h]

theorem foldl_put_rest (l acc : List (Name × V)) (hl : (l.map (·.1)).Nodup) (f : Name) :
    get (l.foldl (fun acc p => if p.1 ∈ baseFields then acc else put acc p.1 p.2) acc) f =
      if f ∈ baseFields then get acc f else (get l f).or (get acc f) := by
  induction l generalizing acc with
  | nil => simp [get]
  | cons p l ih =>
    simp only [List.map_cons, List.nodup_cons] at hl
    rw [List.foldl_cons, ih _ hl.2, get_cons]
    by_cases h : p.1 = f
    · subst h
      have : get l p.1 = none := by
        cases hg : get l p.1 with
        | none => rfl
        | some v => exact absurd (get_isSome.1 (by simp [hg])) hl.1
      by_cases hb : p.1 ∈ baseFields
      · simp [hb]
      · simp [hb, this, get_put]
    · by_cases hb : f ∈ baseFields <;> by_cases hb' : p.1 ∈ baseFields <;> simp [hb, hb', h, get_put]

theorem foldl_parts (args : List (Option (Inst V))) (acc : List (Name × V)) (hv : ∀ a, some a ∈ args → (a.fields.map (·.1)).Nodup) (f : Name) :
    get (args.foldl addPart acc) f =
      if f ∈ baseFields then get acc f else (lastOf (args.map fun a => a.bind fun a => get a.fields f)).or (get acc f) := by
  induction args generalizing acc with
  | nil => simp [lastOf]
  | cons a args ih =>
    rw [List.foldl_cons, ih _ fun b hb => hv b (by simp [hb])]
    cases a with
    | none => by_cases hb : f ∈ baseFields <;> simp [hb, lastOf, addPart]
    | some a =>
      simp only [addPart, foldl_put_rest _ _ (hv a (by simp)), List.map_cons, lastOf, Option.bind_some]
      by_cases hb : f ∈ baseFields
      · simp [hb]
      · simp [hb, Option.or_assoc]

/-- **C91.** `from_joined`, the default joiner: with a primary sample, the result has every field of every part: the key, restore key and subflavors of the
primary sample, and in each other field the value of the last part that has it. It fails only if a part has a field that the class has not, or a field
without a default has no value. -/
theorem C91_from_joined (c : Cls V) (hc : c.names.Nodup) (primary : Inst V) (parts : List (Option (Inst V)))
    (hv : ∀ a, some a ∈ some primary :: parts → a.Valid) (r : Inst V) :
    fromJoined c (some primary :: parts) = some r ↔
      (∀ f, (joinedValue (some primary :: parts) f).isSome = true → f ∈ c.names) ∧ Made c (joinedValue (some primary :: parts)) r := by
  have hget : ∀ f, get ((some primary :: parts).foldl addPart (primary.fields.foldl (fun acc p => put acc p.1 p.2) [])) f = joinedValue (some primary :: parts) f := by
    intro f
    rw [foldl_parts _ _ (fun a ha => (hv a ha).1), foldl_put _ _ (hv primary (by simp)).1]
    unfold joinedValue
    by_cases hb : f ∈ baseFields
    · simp [hb, get]
    · rw [if_neg hb, if_neg hb]
      simp only [get, List.find?_nil, Option.map_none, Option.or_none]
      simp only [List.map_cons, lastOf, Option.bind_some, Option.or_assoc]
      cases Option.map (fun x => x.2) (primary.fields.find? fun x => decide (x.1 = f)) <;> simp
  show construct c _ = some r ↔ _
  rw [construct_iff hc, Made.congr hget]
  refine and_congr_left fun _ => ⟨fun h f hf => h f ?_, fun h f hf => h f ?_⟩
  · rw [← hget] at hf; exact get_isSome.1 hf
  · rw [← hget]; exact get_isSome.2 hf

/-- Without a primary sample there is no joined sample. -/
theorem C91_no_primary (c : Cls V) (parts : List (Option (Inst V))) : fromJoined c (none :: parts) = none := rfl

/-- No field of a part is lost, and none is made up. -/
theorem C91_joined_fields (primary : Inst V) (parts : List (Option (Inst V))) (f : Name) (hf : f ∉ baseFields) :
    (joinedValue (some primary :: parts) f).isSome = true ↔ ∃ a, some a ∈ some primary :: parts ∧ f ∈ a.fields.map (·.1) := by
  unfold joinedValue
  rw [if_neg hf]
  generalize some primary :: parts = args
  induction args with
  | nil => simp [lastOf]
  | cons a args ih =>
    simp only [List.map_cons, lastOf, Option.isSome_or, Bool.or_eq_true, ih]
    constructor
    · rintro (⟨b, hb, hb'⟩ | h)
      · exact ⟨b, by simp [hb], hb'⟩
      · cases a with
        | none => simp at h
        | some a => exact ⟨a, by simp, get_isSome.1 (by simpa using h)⟩
    · rintro ⟨b, hb, hb'⟩
      rcases List.mem_cons.1 hb with rfl | hb
      · exact .inr (by simpa using get_isSome.2 hb')
      · exact .inl ⟨b, hb, hb'⟩

/-- **C91.** The conversions of the default task encoder: to a dict, all fields become items; to a class, the fields are passed by name. Nothing is
converted if no type is given, or the sample is already of this type. -/
theorem C91_encode_sample (c : Cls V) (hc : c.names.Nodup) (x r : Inst V) (hx : x.cls.kind ≠ .other) (hne : c.name ∉ x.cls.bases) :
    encodeSample (some c) x = some r ↔
      (c.kind = .dict ∧ r.cls = c ∧ r.fields = x.fields) ∨
      ((c.kind = .dataclass ∨ c.kind = .namedtuple) ∧ (∀ f ∈ x.fields.map (·.1), f ∈ c.names) ∧ Made c (get x.fields) r) := by
  unfold encodeSample convert
  simp only [hne, decide_false, Bool.false_eq_true, if_false, hx]
  cases hk : c.kind with
  | dict =>
    simp only [Option.some.injEq, true_and, reduceCtorEq, false_or, or_false, false_and]
    constructor
    · rintro rfl; exact ⟨rfl, rfl⟩
    · rintro ⟨h1, h2⟩; rw [← h1, ← h2]
  | dataclass => simp [construct_iff hc]
  | namedtuple => simp [construct_iff hc]
  | other => simp

/-- **C91.** A sample of the wanted type is passed on as it is, and any sample if no type is wanted. -/
theorem C91_encode_same (c : Cls V) (x : Inst V) (h : c.name ∈ x.cls.bases) : encodeSample (some c) x = some x ∧ encodeSample none x = some x := by
  constructor
  · simp [encodeSample, convert, h]
  · rfl

/-- **C91.** The same for batches. -/
theorem C91_encode_batch (raw : Option (Cls V)) (c : Cls V) (hc : c.names.Nodup) (x r : Inst V) (hx : x.cls.kind ≠ .other)
    (hne : raw.map (·.name) ≠ some c.name) :
    encodeBatch raw (some c) x = some r ↔
      (c.kind = .dict ∧ r.cls = c ∧ r.fields = x.fields) ∨
      ((c.kind = .dataclass ∨ c.kind = .namedtuple) ∧ (∀ f ∈ x.fields.map (·.1), f ∈ c.names) ∧ Made c (get x.fields) r) := by
  unfold encodeBatch convert
  simp only [hne, decide_false, Bool.false_eq_true, if_false, hx]
  cases hk : c.kind with
  | dict =>
    simp only [Option.some.injEq, true_and, reduceCtorEq, false_or, or_false, false_and]
    constructor
    · rintro rfl; exact ⟨rfl, rfl⟩
    · rintro ⟨h1, h2⟩; rw [← h1, ← h2]
  | dataclass => simp [construct_iff hc]
  | namedtuple => simp [construct_iff hc]
  | other => simp

/-! ## Examples -/

/-- The fields of all samples. -/
def exBase : List (Decl Nat) := baseFields.map fun f => ⟨f, none⟩

/-- `class Text(Sample): text` -/
def exText : Cls Nat := ⟨"Text", .dataclass, exBase ++ [⟨"text", none⟩], ["Text", "Sample"]⟩

/-- `class Image(Sample): image; text = 7` -/
def exImage : Cls Nat := ⟨"Image", .dataclass, exBase ++ [⟨"image", none⟩, ⟨"text", some 7⟩], ["Image", "Sample"]⟩

/-- `class Both(Text): image; score = 9` -/
def exBoth : Cls Nat := ⟨"Both", .dataclass, exBase ++ [⟨"text", none⟩, ⟨"image", none⟩, ⟨"score", some 9⟩], ["Both", "Text", "Sample"]⟩

def exT : Inst Nat := ⟨exText, [("__key__", 1), ("__restore_key__", 2), ("__subflavor__", 3), ("__subflavors__", 4), ("text", 5)]⟩
def exI : Inst Nat := ⟨exImage, [("__key__", 11), ("__restore_key__", 12), ("__subflavor__", 13), ("__subflavors__", 14), ("image", 6), ("text", 8)]⟩

/-- Joining: the key of the first, the text of the last. -/
example : (fromJoined exBoth [some exT, none, some exI]).map (·.fields) =
    some [("__key__", 1), ("__restore_key__", 2), ("__subflavor__", 3), ("__subflavors__", 4), ("text", 8), ("image", 6), ("score", 9)] := by decide

/-- A class that lacks a field of a part cannot be made of it. -/
example : (fromJoined exText [some exT, some exI]).isNone = true := by decide

example : exBoth.names.Nodup ∧ exT.Valid ∧ exI.Valid := by unfold Inst.Valid; decide

example : (extend exBoth exT [("image", 20)]).map (·.fields) =
    some [("__key__", 1), ("__restore_key__", 2), ("__subflavor__", 3), ("__subflavors__", 4), ("text", 5), ("image", 20), ("score", 9)] := by decide

example : (deriveFrom exImage exT [("image", 20)]).map (·.fields) =
    some [("__key__", 1), ("__restore_key__", 2), ("__subflavor__", 3), ("__subflavors__", 4), ("image", 20), ("text", 7)] := by decide

example : (encodeSample (some exBoth) exI).map (·.fields) =
    some [("__key__", 11), ("__restore_key__", 12), ("__subflavor__", 13), ("__subflavors__", 14), ("text", 8), ("image", 6), ("score", 9)] := by decide

end Verif.Sample
