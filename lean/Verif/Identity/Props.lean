import Verif.Identity.Model

/-!
# C125: A sample says truly where it comes from
-/

namespace Verif.Identity

open Verif.Sample

variable {V : Type}

/-! ## Specification -/

/-- The content of the last file of this name -/
def lastOf (parts : Dict V) (f : Name) : Option V := get parts.reverse f

/-- The sample names its place in the dataset and the subflavors of the dataset. -/
def TrueOrigin (F : Factory V) (w : Where V) (x : Inst V) : Prop :=
  get x.fields "__restore_key__" = some w.restoreKey ∧ get x.fields "__subflavor__" = some F.subflavor ∧
    get x.fields "__subflavors__" = some F.subflavors

/-- The decoder leaves what the reader wrote alone (the decoder of `webdataset` passes on what is no bytes object). -/
def KeepsBasics (F : Factory V) (w : Where V) : Prop :=
  F.dec "__key__" w.key = some w.key ∧ F.dec "__shard__" w.shard = some w.shard ∧ F.dec "__restore_key__" w.restoreKey = some w.restoreKey

/-! ## Lemmas -/

theorem get_foldl (l acc : Dict V) (f : Name) : get (l.foldl (fun acc p => put acc p.1 p.2) acc) f = (lastOf l f).or (get acc f) := by
  induction l generalizing acc with
  | nil => simp [lastOf, Sample.get]
  | cons p l ih =>
    rw [List.foldl_cons, ih, get_put]
    unfold lastOf
    rw [List.reverse_cons, get_append, get_cons]
    cases hg : get l.reverse f with
    | some v => simp
    | none =>
      by_cases h : p.1 = f
      · simp [h]
      · simp [h, Sample.get]

theorem get_group (w : Where V) (parts : Dict V) (f : Name) :
    get (group w parts) f = (lastOf parts f).or
      (if f = "__key__" then some w.key else if f = "__shard__" then some w.shard else if f = "__restore_key__" then some w.restoreKey else none) := by
  unfold group
  rw [get_foldl]
  congr 1
  simp only [get_cons, eq_comm (b := f)]
  simp [Sample.get]

theorem lastOf_none {l : Dict V} {f : Name} : lastOf l f = none ↔ f ∉ l.map (·.1) := by
  have := get_isSome (l := l.reverse) (f := f)
  unfold lastOf
  cases hg : get l.reverse f with
  | none => simpa [hg] using this
  | some v => simpa [hg] using this

theorem get_decodeAll {dec : Name → V → Option V} : ∀ {d r : Dict V}, decodeAll dec d = some r → ∀ f, get r f = (get d f).bind (dec f)
  | [], r, h, f => by
    cases (by simpa [decodeAll] using h : r = [])
    simp [Sample.get]
  | p :: d, r, h, f => by
    unfold decodeAll at h
    rw [List.mapM_cons] at h
    cases hp : dec p.1 p.2 with
    | none => simp [hp] at h
    | some v =>
      cases hd : decodeAll dec d with
      | none => unfold decodeAll at hd; simp [hp, hd] at h
      | some r' =>
        have := get_decodeAll hd f
        unfold decodeAll at hd
        simp [hp, hd] at h
        subst h
        rw [get_cons, get_cons]
        by_cases hf : p.1 = f
        · subst hf; simp [hp]
        · simp [hf, this]

theorem get_construct {c : Cls V} {kw : Dict V} {x : Inst V} (hc : c.names.Nodup) (h : construct c kw = some x) {f : Name} {v : V} (hf : get kw f = some v) :
    get x.fields f = some v := by
  obtain ⟨h1, h2, h3, h4⟩ := (construct_iff hc).1 h
  have := h4 f (h1 f (get_isSome.1 (by simp [hf])))
  simpa [hf] using this

theorem get_make {c : Cls V} {kw : Dict V} {x : Inst V} (hc : c.names.Nodup) (h : make c kw = some x) {f : Name} {v : V} (hf : get kw f = some v) :
    get x.fields f = some v := by
  unfold make at h
  split at h
  · cases h; exact hf
  · exact get_construct hc h hf

/-- What is handed to the sample class. -/
theorem load_kw {F : Factory V} {w : Where V} {parts : Dict V} {x : Inst V} (h : F.load w parts = some x) :
    ∃ d k inner r kw, decodeAll F.dec (group w (parts.filter fun p => F.filter p.1)) = some d ∧ get d "__key__" = some k ∧ F.loader d = some inner ∧
      get d "__restore_key__" = some r ∧ make F.cls kw = some x ∧
      ∀ f, get kw f = if f = "__subflavors__" then some F.subflavors else if f = "__subflavor__" then some F.subflavor
        else if f = "__restore_key__" then some r else (lastOf inner f).or (if f = "__key__" then some k else none) := by
  unfold Factory.load at h
  obtain ⟨d, hd, h⟩ := Option.bind_eq_some_iff.1 h
  obtain ⟨kw, hk, h⟩ := Option.bind_eq_some_iff.1 h
  unfold Factory.sampleLoader at hk
  split at hk
  · rename_i k inner r h1 h2 h3
    cases hk
    refine ⟨d, k, inner, r, _, hd, h1, h2, h3, h, fun f => ?_⟩
    simp only [get_put, get_foldl, get_cons, eq_comm (b := f)]
    simp [Sample.get]
  · cases hk

theorem decoded {F : Factory V} {w : Where V} {parts d : Dict V} (hd : decodeAll F.dec (group w (parts.filter fun p => F.filter p.1)) = some d)
    {f : Name} (hf : f ∉ parts.map (·.1) ∨ F.filter f = false) :
    get d f = ((if f = "__key__" then some w.key else if f = "__shard__" then some w.shard else if f = "__restore_key__" then some w.restoreKey else none) : Option V).bind (F.dec f) := by
  rw [get_decodeAll hd, get_group, lastOf_none.2 ?_, Option.none_or]
  intro hm
  obtain ⟨p, hp, rfl⟩ := List.mem_map.1 hm
  obtain ⟨h1, h2⟩ := List.mem_filter.1 hp
  rcases hf with hf | hf
  · exact hf (List.mem_map_of_mem h1)
  · simp [hf] at h2

/-! ## The theorems -/

/-- **C125.** Whatever files a sample has and whatever its sample loader returns (even a restore key or subflavors of its own): the sample names the place it
was read from, with the subflavors of the dataset — if it has no file `….__restore_key__` that is read. -/
theorem C125_origin_partial (F : Factory V) (hc : F.cls.names.Nodup) (w : Where V) (hk : KeepsBasics F w) (parts : Dict V)
    (hp : "__restore_key__" ∉ parts.map (·.1) ∨ F.filter "__restore_key__" = false) (x : Inst V) (h : F.load w parts = some x) : TrueOrigin F w x := by
  obtain ⟨d, k, inner, r, kw, hd, _, _, h3, h4, h5⟩ := load_kw h
  rw [decoded hd hp] at h3
  simp [hk.2.2] at h3
  subst h3
  exact ⟨get_make hc h4 (by rw [h5]; simp), get_make hc h4 (by rw [h5]; simp), get_make hc h4 (by rw [h5]; simp)⟩

/-- **C125.** The key is the one the sample loader returns, and otherwise that of the file. -/
theorem C125_key_partial (F : Factory V) (hc : F.cls.names.Nodup) (w : Where V) (hk : KeepsBasics F w) (parts : Dict V)
    (hp : "__key__" ∉ parts.map (·.1) ∨ F.filter "__key__" = false) (x : Inst V) (h : F.load w parts = some x) :
    ∃ d inner, decodeAll F.dec (group w (parts.filter fun p => F.filter p.1)) = some d ∧ F.loader d = some inner ∧
      get x.fields "__key__" = some ((lastOf inner "__key__").getD w.key) := by
  obtain ⟨d, k, inner, r, kw, hd, h1, h2, _, h4, h5⟩ := load_kw h
  refine ⟨d, inner, hd, h2, ?_⟩
  rw [decoded hd hp] at h1
  simp [hk.1] at h1
  subst h1
  refine get_make hc h4 ?_
  rw [h5]
  cases lastOf inner "__key__" <;> simp

/-- **C125.** A crude sample is its files, decoded, with the key, the shard, the restore key and the subflavors. -/
theorem C125_crude_partial (dec : Name → V → Option V) (filter : Name → Bool) (s ss : V) (w : Where V) (hk : KeepsBasics (crude dec filter s ss) w)
    (parts : Dict V) (hp : ∀ f ∈ ["__key__", "__shard__", "__restore_key__"], f ∉ parts.map (·.1) ∨ filter f = false) (x : Inst V)
    (h : (crude dec filter s ss).load w parts = some x) (f : Name) :
    get x.fields f = if f = "__key__" then some w.key else if f = "__shard__" then some w.shard else if f = "__restore_key__" then some w.restoreKey
      else if f = "__subflavor__" then some s else if f = "__subflavors__" then some ss
      else if filter f = true then (lastOf parts f).bind (dec f) else none := by
  obtain ⟨d, k, inner, r, kw, hd, h1, h2, h3, h4, h5⟩ := load_kw h
  cases h2
  have hx : x.fields = kw := by
    unfold make at h4
    have h4 : (some ⟨crudeCls, kw⟩ : Option (Inst V)) = some x := h4
    cases h4; rfl
  have hnd : (d.map (·.1)).Nodup := by
    have hg : ∀ (l acc : Dict V), (acc.map (·.1)).Nodup → ((l.foldl (fun g p => put g p.1 p.2) acc).map (·.1)).Nodup := by
      intro l
      induction l with
      | nil => intro acc h; exact h
      | cons p l ih =>
        intro acc h
        refine ih _ ?_
        show ((put acc p.1 p.2).map (·.1)).Nodup
        unfold put
        by_cases hn : acc.any (·.1 = p.1) = true
        · rw [if_pos hn, List.map_map]
          have : ((·.1) ∘ fun q : Name × V => if q.1 = p.1 then (p.1, p.2) else q) = (·.1) := by
            funext q; simp only [Function.comp]; split <;> simp_all
          rw [this]; exact h
        · rw [if_neg hn, List.map_append, List.nodup_append]
          refine ⟨h, by simp, ?_⟩
          rintro a ha b hb rfl
          obtain ⟨q, hq, hqa⟩ := List.mem_map.1 ha
          simp at hb
          exact hn (List.any_eq_true.2 ⟨q, hq, by simp [hqa, hb]⟩)
    have hm : ∀ {l r : Dict V}, decodeAll dec l = some r → r.map (·.1) = l.map (·.1) := by
      intro l
      induction l with
      | nil => intro r h; cases (by simpa [decodeAll] using h : r = []); rfl
      | cons p l ih =>
        intro r h
        unfold decodeAll at h
        rw [List.mapM_cons] at h
        cases hp : dec p.1 p.2 with
        | none => simp [hp] at h
        | some v =>
          cases hd : decodeAll dec l with
          | none => unfold decodeAll at hd; simp [hp, hd] at h
          | some r' =>
            have := ih hd
            unfold decodeAll at hd
            simp [hp, hd] at h
            subst h
            simp [this]
    rw [hm hd]
    exact hg _ _ (by simp)
  have hlast : lastOf d f = get d f := by
    have h1 := get_foldl d [] f
    rw [foldl_put d [] hnd f] at h1
    simpa [Sample.get] using h1.symm
  rw [hx, h5, hlast]
  have hb := fun f hf => decoded hd (hp f hf)
  have hother : f ≠ "__key__" → f ≠ "__shard__" → f ≠ "__restore_key__" → get d f = if filter f = true then (lastOf parts f).bind (dec f) else none := by
    intro n1 n2 n3
    rw [get_decodeAll hd, get_group]
    simp only [n1, n2, n3, if_false, Option.or_none]
    have : lastOf (parts.filter fun p => (crude dec filter s ss).filter p.1) f = if filter f = true then lastOf parts f else none := by
      unfold lastOf
      rw [← List.filter_reverse]
      generalize parts.reverse = l
      induction l with
      | nil => simp [Sample.get]
      | cons p l ih =>
        rw [List.filter_cons]
        by_cases hf : p.1 = f
        · subst hf
          by_cases hft : filter p.1 = true
          · simp [crude, hft, get_cons]
          · rw [if_neg hft, if_neg (by simpa [crude] using hft), ih, if_neg hft]
        · rw [get_cons, if_neg hf]
          split
          · rw [get_cons, if_neg hf, ih]
          · exact ih
    rw [this]
    split <;> rfl
  have e1 := hb "__key__" (by simp)
  have e2 := hb "__shard__" (by simp)
  have e3 := hb "__restore_key__" (by simp)
  obtain ⟨k1, k2, k3⟩ := hk
  simp [k1] at e1
  simp [k2] at e2
  simp [k3] at e3
  have hr : r = w.restoreKey := by rw [e3] at h3; exact (Option.some.inj h3).symm
  by_cases n1 : f = "__key__"
  · subst n1; simp [e1]
  by_cases n2 : f = "__shard__"
  · subst n2; simp [e2]
  by_cases n3 : f = "__restore_key__"
  · subst n3; simp [hr]
  by_cases n4 : f = "__subflavor__"
  · subst n4; simp [crude]
  by_cases n5 : f = "__subflavors__"
  · subst n5; simp [crude]
  rw [hother n1 n2 n3]
  simp [n1, n2, n3, n4, n5]

/-- **C125.** A cooked sample (with `basic_sample_keys`) has the key, restore key and subflavors of the crude one. -/
theorem C125_cooked (c : Cls V) (hc : c.names.Nodup) (fields : Dict V → Dict V) (s x : Inst V) (h : cook c fields s = some x)
    (f : Name) (hf : f ∈ baseFields) (v : V) (hv : get s.fields f = some v) : get x.fields f = some v := by
  unfold cook at h
  split at h
  · cases h
  · refine get_make hc h ?_
    rw [get_append]
    have : get (basicSampleKeys s.fields) f = some v := by
      have gen : ∀ fs : List Name, f ∈ fs → get (fs.filterMap fun f => (get s.fields f).map fun v => (f, v)) f = some v := by
        intro fs
        induction fs with
        | nil => simp
        | cons g fs ih =>
          intro hm
          by_cases hg : g = f
          · subst hg; simp [hv, get_cons]
          · have hm' : f ∈ fs := by
              rcases List.mem_cons.1 hm with e | e
              · exact absurd e.symm hg
              · exact e
            rw [List.filterMap_cons]
            cases hgv : get s.fields g with
            | none => simpa [hgv] using ih hm'
            | some u => simpa [hgv, get_cons, hg] using ih hm'
      exact gen _ hf
    simp [this]

/-- The whole way: the cooked sample of a crude dataset names its place. -/
theorem C125_cooked_origin_partial (dec : Name → V → Option V) (filter : Name → Bool) (s ss : V) (w : Where V) (hk : KeepsBasics (crude dec filter s ss) w)
    (parts : Dict V) (hp : "__restore_key__" ∉ parts.map (·.1) ∨ filter "__restore_key__" = false) (x y : Inst V)
    (h : (crude dec filter s ss).load w parts = some x) (c : Cls V) (hc : c.names.Nodup) (fields : Dict V → Dict V) (hy : cook c fields x = some y) :
    TrueOrigin (crude dec filter s ss) w y := by
  obtain ⟨h1, h2, h3⟩ := C125_origin_partial _ (by simp [crude, crudeCls, Cls.names]) w hk parts hp x h
  exact ⟨C125_cooked c hc fields x y hy _ (by simp [baseFields]) _ h1, C125_cooked c hc fields x y hy _ (by simp [baseFields]) _ h2,
    C125_cooked c hc fields x y hy _ (by simp [baseFields]) _ h3⟩

/-! ## Where it fails -/

/-- The full statement: whatever files there are -/
def C125_statement (V : Type) : Prop :=
  ∀ (F : Factory V), F.cls.names.Nodup → ∀ (w : Where V), KeepsBasics F w → ∀ (parts : Dict V) (x : Inst V), F.load w parts = some x → TrueOrigin F w x

/-- **C125 fails**: the content of a file `NAME.__restore_key__` of a crude dataset is taken for the restore key: all samples with such a file and the same
content get the same restore key, whereever they are read from. -/
theorem C125_violated_file (s ss v : V) (w : Where V) (parts : Dict V) (hp : lastOf parts "__restore_key__" = some v) :
    ∃ x, (crude (fun _ v => some v) (fun _ => true) s ss).load w parts = some x ∧ get x.fields "__restore_key__" = some v := by
  have hdec : ∀ d : Dict V, decodeAll (fun _ v => some v) d = some d := by
    intro d
    unfold decodeAll
    induction d with
    | nil => rfl
    | cons p d ih => rw [List.mapM_cons, ih]; rfl
  have hg := get_group w parts "__restore_key__"
  rw [hp, Option.some_or] at hg
  have hk : ∃ k, get (group w parts) "__key__" = some k := by
    rw [get_group]
    cases lastOf parts "__key__" <;> simp
  obtain ⟨k, hk⟩ := hk
  have hf : (parts.filter fun _ => true) = parts := List.filter_eq_self.2 fun _ _ => rfl
  have hl : ∃ kw, (crude (fun _ v => some v) (fun _ => true) s ss).sampleLoader (group w parts) = some kw ∧ get kw "__restore_key__" = some v := by
    unfold Factory.sampleLoader
    simp only [hk, hg, crude]
    exact ⟨_, rfl, by simp [get_put]⟩
  obtain ⟨kw, hl, hr⟩ := hl
  refine ⟨⟨crudeCls, kw⟩, ?_, hr⟩
  have h1 : decodeAll (crude (fun _ v => some v) (fun _ => true) s ss).dec (group w (parts.filter fun p => (crude (fun _ v => some v) (fun _ => true) s ss).filter p.1)) =
      some (group w parts) := by
    show decodeAll (fun _ v => some v) (group w (parts.filter fun _ => true)) = _
    rw [hf, hdec]
  unfold Factory.load
  rw [h1, Option.bind_some, hl]
  rfl

theorem C125_violated : ¬ C125_statement Nat := by
  intro h
  obtain ⟨x, hx, hr⟩ := C125_violated_file 0 0 7 ⟨1, 2, 3⟩ [("__restore_key__", 7)] rfl
  have := (h (crude (fun _ v => some v) (fun _ => true) 0 0) (by simp [crude, crudeCls, Cls.names]) ⟨1, 2, 3⟩ ⟨rfl, rfl, rfl⟩ _ x hx).1
  rw [hr] at this
  cases this

/-! ## Examples -/

/-- A sample class with the fields of `Sample` and two of its own -/
def exCls : Cls Nat := ⟨"CaptioningSample", .dataclass,
  [⟨"__key__", none⟩, ⟨"__restore_key__", none⟩, ⟨"__subflavor__", none⟩, ⟨"__subflavors__", none⟩, ⟨"image", none⟩, ⟨"caption", none⟩],
  ["CaptioningSample", "Sample"]⟩

/-- A sample loader that returns its own restore key and subflavors; the filter admits `jpg` and `txt`. -/
def exFactory : Factory Nat :=
  ⟨exCls, fun n v => some (if n = "jpg" then v + 100 else v),
   fun d => match get d "jpg", get d "txt" with
    | some i, some c => some [("image", i), ("caption", c), ("__restore_key__", 99), ("__subflavors__", 98)]
    | _, _ => none,
   fun f => f ∈ ["jpg", "txt"], 10, 11⟩

example : (exFactory.load ⟨1, 2, 3⟩ [("jpg", 5), ("__restore_key__", 6), ("txt", 7)]).map (·.fields) =
    some [("__key__", 1), ("__restore_key__", 3), ("__subflavor__", 10), ("__subflavors__", 11), ("image", 105), ("caption", 7)] := by decide

example : exFactory.cls.names.Nodup ∧ KeepsBasics exFactory ⟨1, 2, 3⟩ := by
  refine ⟨by decide, rfl, rfl, rfl⟩

example : ((crude (fun _ v => some v) (fun f => f ∈ ["jpg", "txt"]) 10 11).load ⟨1, 2, 3⟩ [("jpg", 5), ("png", 6), ("txt", 7)]).map (·.fields) =
    some [("__key__", 1), ("__shard__", 2), ("__restore_key__", 3), ("jpg", 5), ("txt", 7), ("__subflavor__", 10), ("__subflavors__", 11)] := by decide

end Verif.Identity
