import Verif.Config.TypedProps
import Mathlib.Tactic.Tauto
import Mathlib.Tactic.FinCases

/-!
# Loading a dataset configuration

`load_config` (dataset_config.py:18-50) with `raw_to_instance` and `safe_call_function` (typed_converter.py): which arguments the class of the dataset
is called with.
-/

namespace Verif.Config

variable {E : Env}

/-! ## Specification -/

/-- A dict has each key once. -/
def IsDict (d : List (Key × PVal)) : Prop := (d.map (·.1)).Nodup

/-- The names that tell what to instantiate are no arguments. -/
def special (k : Str) : Prop := k = moduleKey ∨ k = classKey ∨ k = functionKey

/-- What is set for a parameter: in the file, or else by the caller (`default_kwargs`), or else by the default value of the parameter. -/
def setting (defaults data : List (Key × PVal)) (p : Param) : Option PVal :=
  ((getKey data p.name).or (getKey defaults p.name)).or p.default

/-- The dict names what to instantiate: `cls` of module `m`. -/
def Names (d : List (Key × PVal)) (m o : Str) : Prop := getKey d moduleKey = some (.str m) ∧ getKey d classKey = some (.str o)

/-- The dict names a function to call: `f` of module `m` (and no class). -/
def NamesFn (d : List (Key × PVal)) (m o : Str) : Prop :=
  getKey d moduleKey = some (.str m) ∧ getKey d functionKey = some (.str o) ∧ getKey d classKey = .none

/-! ## Lemmas -/

theorem lookupK_put (l : List (Key × PVal)) (k k' : Key) (v : PVal) : lookupK (putKey l k v) k' = if k = k' then some v else lookupK l k' := by
  induction l with
  | nil => simp [putKey, lookupK]
  | cons p l ih =>
    obtain ⟨a, w⟩ := p
    by_cases h : a = k
    · subst h
      simp only [putKey, if_true, lookupK]
      by_cases h' : a = k' <;> simp [h']
    · simp only [putKey, if_neg h, lookupK, ih]
      by_cases h' : a = k'
      · subst h'
        simp [Ne.symm h]
      · simp [h']

theorem lookupK_none {l : List (Key × PVal)} {k : Key} (h : k ∉ l.map (·.1)) : lookupK l k = .none := by
  induction l with
  | nil => rfl
  | cons p l ih =>
    simp only [List.map_cons, List.mem_cons, not_or] at h
    simp [lookupK, Ne.symm h.1, ih h.2]

theorem lookupK_some {l : List (Key × PVal)} {k : Key} (h : k ∈ l.map (·.1)) : ∃ v, lookupK l k = some v := by
  induction l with
  | nil => simp at h
  | cons p l ih =>
    simp only [List.map_cons, List.mem_cons] at h
    by_cases hk : p.1 = k
    · exact ⟨p.2, by simp [lookupK, hk]⟩
    · rcases h with h | h
      · exact absurd h.symm hk
      · obtain ⟨v, hv⟩ := ih h
        exact ⟨v, by simp [lookupK, hk, hv]⟩

theorem lookupK_update (a b : List (Key × PVal)) (hb : IsDict b) (k : Key) : lookupK (updateKeys a b) k = (lookupK b k).or (lookupK a k) := by
  induction b generalizing a with
  | nil => simp [updateKeys, lookupK]
  | cons p b ih =>
    obtain ⟨k', v⟩ := p
    simp only [IsDict, List.map_cons, List.nodup_cons] at hb
    have : updateKeys a ((k', v) :: b) = updateKeys (putKey a k' v) b := rfl
    rw [this, ih _ hb.2, lookupK_put]
    by_cases h : k' = k
    · subst h
      simp [lookupK, lookupK_none hb.1]
    · simp [lookupK, h]

theorem mem_put {l : List (Key × PVal)} {k k' : Key} {v : PVal} : k' ∈ (putKey l k v).map (·.1) ↔ k' = k ∨ k' ∈ l.map (·.1) := by
  induction l with
  | nil => simp [putKey]
  | cons p l ih =>
    obtain ⟨a, w⟩ := p
    by_cases h : a = k
    · subst h; simp [putKey]
    · simp only [putKey, if_neg h, List.map_cons, List.mem_cons, ih]
      tauto

theorem mem_update {a b : List (Key × PVal)} {k : Key} : k ∈ (updateKeys a b).map (·.1) ↔ k ∈ a.map (·.1) ∨ k ∈ b.map (·.1) := by
  induction b generalizing a with
  | nil => simp [updateKeys]
  | cons p b ih =>
    have : updateKeys a (p :: b) = updateKeys (putKey a p.1 p.2) b := rfl
    rw [this, ih, mem_put, List.map_cons, List.mem_cons]
    tauto

theorem getKey_pop {d : List (Key × PVal)} {k k' : Str} : getKey (popKey d k) k' = if k' = k then .none else getKey d k' := by
  induction d with
  | nil => simp [popKey, getKey, lookupK]
  | cons p d ih =>
    obtain ⟨a, v⟩ := p
    simp only [popKey, getKey] at ih ⊢
    by_cases h : a = .str k
    · subst h
      simp only [List.filter_cons, ne_eq, not_true_eq_false, decide_false, Bool.false_eq_true, if_false, ih, lookupK]
      by_cases h' : k' = k
      · simp [h']
      · have : ¬ (Key.str k = Key.str k') := fun he => h' (by injection he with he; exact he.symm)
        simp [h', this]
    · simp only [List.filter_cons, ne_eq, h, not_false_eq_true, decide_true, if_true, lookupK, ih]
      by_cases h' : a = .str k'
      · have : ¬ k' = k := fun he => h (by rw [h', he])
        simp [h', this]
      · simp [h']

theorem mem_pop {d : List (Key × PVal)} {k : Str} {k' : Key} : k' ∈ (popKey d k).map (·.1) ↔ k' ≠ .str k ∧ k' ∈ d.map (·.1) := by
  simp only [popKey, List.mem_map, List.mem_filter, decide_eq_true_eq, ne_eq]
  constructor
  · rintro ⟨p, ⟨h1, h2⟩, rfl⟩
    exact ⟨h2, p, h1, rfl⟩
  · rintro ⟨h1, p, h2, rfl⟩
    exact ⟨p, ⟨h2, h1⟩, rfl⟩

/-- What `bindArgs` does for parameters that are passed by name. -/
theorem bindArgs_normal {rec : PVal → Ty → Res PVal} {ps : List Param} (hp : ∀ p ∈ ps, p.kind = .normal) (hn : (ps.map (·.name)).Nodup)
    {d rest : List (Key × PVal)} {kw0 kw : List (Str × PVal)} (h : bindArgs rec ps d kw0 = .ok (kw, rest)) :
    ∃ new, kw = kw0 ++ new ∧ new.map (·.1) = ps.map (·.name) ∧
      (∀ q ∈ ps.zip new, ∃ raw, (getKey d q.1.name).or q.1.default = some raw ∧ rec raw q.1.ty = .ok q.2.2) ∧
      (∀ k, k ∈ rest.map (·.1) ↔ k ∈ d.map (·.1) ∧ ∀ p ∈ ps, k ≠ .str p.name) := by
  induction ps generalizing d kw0 with
  | nil =>
    simp only [bindArgs, Except.ok.injEq, Prod.mk.injEq] at h
    obtain ⟨rfl, rfl⟩ := h
    exact ⟨[], by simp, by simp, by simp, by simp⟩
  | cons p ps ih =>
    have hk := hp p (by simp)
    simp only [List.map_cons, List.nodup_cons] at hn
    simp only [bindArgs, hk] at h
    cases hv : (getKey d p.name).or p.default with
    | none => simp [hv] at h
    | some v =>
      cases hr : rec v p.ty with
      | error e => simp [hv, hr] at h
      | ok r =>
        simp only [hv, hr] at h
        obtain ⟨new, h1, h2, h3, h4⟩ := ih (fun q hq => hp q (by simp [hq])) hn.2 h
        refine ⟨(p.name, r) :: new, by simp [h1], by simp [h2], ?_, ?_⟩
        · intro q hq
          simp only [List.zip_cons_cons, List.mem_cons] at hq
          rcases hq with rfl | hq
          · exact ⟨v, hv, hr⟩
          · obtain ⟨raw, h5, h6⟩ := h3 q hq
            refine ⟨raw, ?_, h6⟩
            have hne : q.1.name ≠ p.name := by
              intro he
              exact hn.1 (he ▸ List.mem_map_of_mem (f := (·.name)) (List.of_mem_zip (a := q.1) (b := q.2) hq).1)
            rwa [getKey_pop, if_neg hne] at h5
        · intro k
          rw [h4, mem_pop]
          simp only [List.mem_cons, forall_eq_or_imp]
          tauto

/-- A missing required argument is never passed over. -/
theorem bindArgs_missing {rec : PVal → Ty → Res PVal} {ps : List Param} (hp : ∀ p ∈ ps, p.kind = .normal) (hn : (ps.map (·.name)).Nodup)
    {d : List (Key × PVal)} {kw0 : List (Str × PVal)} (hok : ∀ p ∈ ps, ∃ raw r, (getKey d p.name).or p.default = some raw ∧ rec raw p.ty = .ok r) :
    ∃ kw rest, bindArgs rec ps d kw0 = .ok (kw, rest) := by
  induction ps generalizing d kw0 with
  | nil => exact ⟨_, _, rfl⟩
  | cons p ps ih =>
    have hk := hp p (by simp)
    simp only [List.map_cons, List.nodup_cons] at hn
    obtain ⟨raw, r, h1, h2⟩ := hok p (by simp)
    simp only [bindArgs, hk, h1, h2]
    refine ih (fun q hq => hp q (by simp [hq])) hn.2 fun q hq => ?_
    obtain ⟨raw, r, h3, h4⟩ := hok q (by simp [hq])
    refine ⟨raw, r, ?_, h4⟩
    have hne : q.name ≠ p.name := fun he => hn.1 (he ▸ List.mem_map_of_mem (f := (·.name)) hq)
    rwa [getKey_pop, if_neg hne]

/-- `callWith` for a class all of whose parameters are passed by name. -/
theorem callWith_cls {rec : PVal → Ty → Res PVal} {name : Str} {base : Option Str} {ps : List Param} (hp : ∀ p ∈ ps, p.kind = .normal)
    (hn : (ps.map (·.name)).Nodup) {d : List (Key × PVal)} {v : PVal} :
    callWith E rec true (.cls name base ps) d = .ok v ↔
      ∃ kw, v = .obj name kw ∧ E.accepts name kw = true ∧ kw.map (·.1) = ps.map (·.name) ∧
        (∀ q ∈ ps.zip kw, ∃ raw, (getKey d q.1.name).or q.1.default = some raw ∧ rec raw q.1.ty = .ok q.2.2) ∧
        ∀ k ∈ d.map (·.1), ∃ p ∈ ps, k = .str p.name := by
  constructor
  · intro h
    simp only [callWith] at h
    cases hb : bindArgs rec ps d [] with
    | error e => simp [hb] at h
    | ok r =>
      obtain ⟨kw, rest⟩ := r
      simp only [hb, Bool.true_and] at h
      obtain ⟨new, h1, h2, h3, h4⟩ := bindArgs_normal hp hn hb
      simp only [List.nil_append] at h1
      subst h1
      by_cases hr : rest.isEmpty = true
      · simp only [hr, Bool.not_true, Bool.false_eq_true, if_false] at h
        by_cases ha : E.accepts name kw = true
        · simp only [ha, if_true, Except.ok.injEq] at h
          refine ⟨kw, h.symm, ha, h2, h3, ?_⟩
          intro k hk
          rw [List.isEmpty_iff] at hr
          subst hr
          apply Classical.byContradiction
          intro hno
          have := (h4 k).2 ⟨hk, fun p hp he => hno ⟨p, hp, he⟩⟩
          simp at this
        · simp [ha] at h
      · simp [hr] at h
  · rintro ⟨kw, rfl, ha, h2, h3, h4⟩
    have hlen : ps.length = kw.length := by simpa using (congrArg List.length h2).symm
    obtain ⟨kw', rest, hb⟩ := bindArgs_missing (rec := rec) (d := d) (kw0 := []) hp hn (by
      intro p hpm
      obtain ⟨i, hi, he⟩ := List.mem_iff_getElem.1 hpm
      have : (p, kw[i]'(by omega)) ∈ ps.zip kw := by
        rw [← he]
        exact List.mem_iff_getElem.2 ⟨i, by simp; omega, by simp⟩
      obtain ⟨raw, h5, h6⟩ := h3 _ this
      exact ⟨raw, _, h5, h6⟩)
    obtain ⟨new, h5, h6, h7, h8⟩ := bindArgs_normal hp hn hb
    simp only [List.nil_append] at h5
    subst h5
    have hkw : kw' = kw := by
      have hlen' : ps.length = kw'.length := by simpa using (congrArg List.length h6).symm
      refine List.ext_getElem (by omega) fun i hi hi' => ?_
      have m1 : (ps[i]'(by omega), kw'[i]) ∈ ps.zip kw' := List.mem_iff_getElem.2 ⟨i, by simp; omega, by simp⟩
      have m2 : (ps[i]'(by omega), kw[i]) ∈ ps.zip kw := List.mem_iff_getElem.2 ⟨i, by simp; omega, by simp⟩
      obtain ⟨r1, e1, e2⟩ := h7 _ m1
      obtain ⟨r2, e3, e4⟩ := h3 _ m2
      simp only at e1 e2 e3 e4
      rw [e1] at e3
      cases e3
      rw [e2] at e4
      injection e4 with e4
      have n1 : (kw'.map (·.1))[i]'(by simp; omega) = (kw.map (·.1))[i]'(by simp; omega) := by simp only [h6, h2]
      simp only [List.getElem_map] at n1
      exact Prod.ext n1 e4
    subst hkw
    have hrest : rest = [] := by
      cases rest with
      | nil => rfl
      | cons q rest =>
        obtain ⟨h9, h10⟩ := (h8 q.1).1 (by simp)
        obtain ⟨p, hpm, he⟩ := h4 _ h9
        exact absurd he (h10 p hpm)
    simp [callWith, hb, hrest, ha]

/-- `callWith` for a function all of whose parameters are passed by name. -/
theorem callWith_fn {rec : PVal → Ty → Res PVal} {name : Str} {ps : List Param} (hp : ∀ p ∈ ps, p.kind = .normal)
    (hn : (ps.map (·.name)).Nodup) {d : List (Key × PVal)} {v : PVal} :
    callWith E rec true (.fn name ps) d = .ok v ↔
      ∃ kw, E.call name kw = some v ∧ kw.map (·.1) = ps.map (·.name) ∧
        (∀ q ∈ ps.zip kw, ∃ raw, (getKey d q.1.name).or q.1.default = some raw ∧ rec raw q.1.ty = .ok q.2.2) ∧
        ∀ k ∈ d.map (·.1), ∃ p ∈ ps, k = .str p.name := by
  constructor
  · intro h
    simp only [callWith] at h
    cases hb : bindArgs rec ps d [] with
    | error e => simp [hb] at h
    | ok r =>
      obtain ⟨kw, rest⟩ := r
      simp only [hb, Bool.true_and] at h
      obtain ⟨new, h1, h2, h3, h4⟩ := bindArgs_normal hp hn hb
      simp only [List.nil_append] at h1
      subst h1
      by_cases hr : rest.isEmpty = true
      · simp only [hr, Bool.not_true, Bool.false_eq_true, if_false] at h
        cases ha : E.call name kw with
        | some v' =>
          simp only [ha, Except.ok.injEq] at h
          subst h
          refine ⟨kw, ha, h2, h3, ?_⟩
          intro k hk
          rw [List.isEmpty_iff] at hr
          subst hr
          apply Classical.byContradiction
          intro hno
          have := (h4 k).2 ⟨hk, fun p hp he => hno ⟨p, hp, he⟩⟩
          simp at this
        | none => simp [ha] at h
      · simp [hr] at h
  · rintro ⟨kw, ha, h2, h3, h4⟩
    have hlen : ps.length = kw.length := by simpa using (congrArg List.length h2).symm
    obtain ⟨kw', rest, hb⟩ := bindArgs_missing (rec := rec) (d := d) (kw0 := []) hp hn (by
      intro p hpm
      obtain ⟨i, hi, he⟩ := List.mem_iff_getElem.1 hpm
      have : (p, kw[i]'(by omega)) ∈ ps.zip kw := by
        rw [← he]
        exact List.mem_iff_getElem.2 ⟨i, by simp; omega, by simp⟩
      obtain ⟨raw, h5, h6⟩ := h3 _ this
      exact ⟨raw, _, h5, h6⟩)
    obtain ⟨new, h5, h6, h7, h8⟩ := bindArgs_normal hp hn hb
    simp only [List.nil_append] at h5
    subst h5
    have hkw : kw' = kw := by
      have hlen' : ps.length = kw'.length := by simpa using (congrArg List.length h6).symm
      refine List.ext_getElem (by omega) fun i hi hi' => ?_
      have m1 : (ps[i]'(by omega), kw'[i]) ∈ ps.zip kw' := List.mem_iff_getElem.2 ⟨i, by simp; omega, by simp⟩
      have m2 : (ps[i]'(by omega), kw[i]) ∈ ps.zip kw := List.mem_iff_getElem.2 ⟨i, by simp; omega, by simp⟩
      obtain ⟨r1, e1, e2⟩ := h7 _ m1
      obtain ⟨r2, e3, e4⟩ := h3 _ m2
      simp only at e1 e2 e3 e4
      rw [e1] at e3
      cases e3
      rw [e2] at e4
      injection e4 with e4
      have n1 : (kw'.map (·.1))[i]'(by simp; omega) = (kw.map (·.1))[i]'(by simp; omega) := by simp only [h6, h2]
      simp only [List.getElem_map] at n1
      exact Prod.ext n1 e4
    subst hkw
    have hrest : rest = [] := by
      cases rest with
      | nil => rfl
      | cons q rest =>
        obtain ⟨h9, h10⟩ := (h8 q.1).1 (by simp)
        obtain ⟨p, hpm, he⟩ := h4 _ h9
        exact absurd he (h10 p hpm)
    simp [callWith, hb, hrest, ha]

theorem setting_eq {defaults data d : List (Key × PVal)} {p : Param}
    (hd : getKey d p.name = (getKey data p.name).or (getKey defaults p.name)) :
    (getKey d p.name).or p.default = setting defaults data p := by
  rw [hd]; rfl

/-! ## C75 -/

/-- **C75.** A configuration without `__module__` gives the class asked for, called exactly with the settings: the value of each parameter is what the
file says, or else what the caller gave, or else the default, converted to the annotation; and every setting of the file and of the caller is
a parameter: nothing is ignored. If one of these conditions fails, loading fails. -/
theorem C75_default (defaults data : List (Key × PVal)) (hd : IsDict data) (n : Nat) (name : Str) (base : Option Str) (ps : List Param)
    (hp : ∀ p ∈ ps, p.kind = .normal) (hn : (ps.map (·.name)).Nodup) (hs : ∀ p ∈ ps, ¬ special p.name)
    (h0 : ∀ s, special s → getKey data s = .none ∧ getKey defaults s = .none) (v : PVal) :
    loadConfig E true n defaults data (.cls name) (.cls name base ps) = .ok v ↔
      ∃ kw, v = .obj name kw ∧ E.accepts name kw = true ∧ kw.map (·.1) = ps.map (·.name) ∧
        (∀ q ∈ ps.zip kw, ∃ raw, setting defaults data q.1 = some raw ∧ conv E true true n raw q.1.ty = .ok q.2.2) ∧
        ∀ k ∈ data.map (·.1) ++ defaults.map (·.1), ∃ p ∈ ps, k = .str p.name := by
  have hu : ∀ s, getKey (updateKeys defaults data) s = (getKey data s).or (getKey defaults s) := fun s => lookupK_update _ _ hd _
  have hnone : ∀ s, special s → getKey (updateKeys defaults data) s = .none := fun s h => by rw [hu, (h0 s h).1, (h0 s h).2]; rfl
  have hmod := hnone moduleKey (.inl rfl)
  have hcls : getKey (popKey (updateKeys defaults data) moduleKey) classKey = .none := by
    rw [getKey_pop]; split
    · rfl
    · exact hnone _ (.inr (.inl rfl))
  have e : loadConfig E true n defaults data (.cls name) (.cls name base ps) =
      callWith E (conv E true true n) true (.cls name base ps) (popKey (popKey (updateKeys defaults data) moduleKey) functionKey) := by
    simp only [loadConfig, instantiate, hmod, hcls, Option.isSome_none, Bool.false_eq_true, if_false]
  rw [e, callWith_cls hp hn]
  have hget : ∀ p ∈ ps, (getKey (popKey (popKey (updateKeys defaults data) moduleKey) functionKey) p.name).or p.default = setting defaults data p := by
    intro p hpm
    apply setting_eq
    rw [getKey_pop, if_neg (fun he => hs p hpm (.inr (.inr he))), getKey_pop, if_neg (fun he => hs p hpm (.inl he)), hu]
  have hkeys : ∀ k, k ∈ (popKey (popKey (updateKeys defaults data) moduleKey) functionKey).map (·.1) ↔ k ∈ data.map (·.1) ++ defaults.map (·.1) := by
    intro k
    rw [mem_pop, mem_pop, mem_update, List.mem_append]
    have key : ∀ s, special s → k = .str s → ¬ (k ∈ defaults.map (·.1) ∨ k ∈ data.map (·.1)) := by
      rintro s hsp rfl (h | h)
      · obtain ⟨w, hw⟩ := lookupK_some h
        have := (h0 s hsp).2
        rw [getKey, hw] at this; cases this
      · obtain ⟨w, hw⟩ := lookupK_some h
        have := (h0 s hsp).1
        rw [getKey, hw] at this; cases this
    constructor
    · rintro ⟨_, _, h⟩
      exact h.symm
    · intro h
      exact ⟨fun he => key _ (.inr (.inr rfl)) he h.symm, fun he => key _ (.inl rfl) he h.symm, h.symm⟩
  constructor
  · rintro ⟨kw, h1, h2, h3, h4, h5⟩
    refine ⟨kw, h1, h2, h3, ?_, fun k hk => h5 k ((hkeys k).2 hk)⟩
    intro q hq
    obtain ⟨raw, h6, h7⟩ := h4 q hq
    exact ⟨raw, by rw [← hget _ (List.of_mem_zip (a := q.1) (b := q.2) hq).1, h6], h7⟩
  · rintro ⟨kw, h1, h2, h3, h4, h5⟩
    refine ⟨kw, h1, h2, h3, ?_, fun k hk => h5 k ((hkeys k).1 hk)⟩
    intro q hq
    obtain ⟨raw, h6, h7⟩ := h4 q hq
    exact ⟨raw, by rw [hget _ (List.of_mem_zip (a := q.1) (b := q.2) hq).1, h6], h7⟩

/-- **C75.** A configuration that names a class of a module gives this class, called in the same way. -/
theorem C75_named (defaults data : List (Key × PVal)) (hd : IsDict data) (n : Nat) (T name : Str) (base : Option Str) (ps : List Param) (f : Obj)
    (hp : ∀ p ∈ ps, p.kind = .normal) (hn : (ps.map (·.name)).Nodup) (hs : ∀ p ∈ ps, ¬ special p.name)
    (m o : Str) (hm : Names data m o) (ns : Str → Option Obj) (hE : E.module m = some ns) (ho : ns o = some (.cls name base ps)) (v : PVal) :
    loadConfig E true n defaults data (.cls T) f = .ok v ↔
      ∃ kw, v = .obj name kw ∧ E.accepts name kw = true ∧ kw.map (·.1) = ps.map (·.name) ∧
        (∀ q ∈ ps.zip kw, ∃ raw, setting defaults data q.1 = some raw ∧ conv E true true n raw q.1.ty = .ok q.2.2) ∧
        ∀ k ∈ data.map (·.1) ++ defaults.map (·.1), (k = .str moduleKey ∨ k = .str classKey) ∨ ∃ p ∈ ps, k = .str p.name := by
  have hu : ∀ s, getKey (updateKeys defaults data) s = (getKey data s).or (getKey defaults s) := fun s => lookupK_update _ _ hd _
  have hne : classKey ≠ moduleKey := by decide
  have hmod : getKey (updateKeys defaults data) moduleKey = some (.str m) := by rw [hu, hm.1]; rfl
  have hcls : getKey (popKey (updateKeys defaults data) moduleKey) classKey = some (.str o) := by
    rw [getKey_pop, if_neg hne, hu, hm.2]; rfl
  have e : loadConfig E true n defaults data (.cls T) f =
      callWith E (conv E true true n) true (.cls name base ps) (popKey (popKey (updateKeys defaults data) moduleKey) classKey) := by
    simp only [loadConfig, instantiate, hmod, hcls, importObj, asStr, hE, ho, checkInst, if_true]
  rw [e, callWith_cls hp hn]
  have hget : ∀ p ∈ ps, (getKey (popKey (popKey (updateKeys defaults data) moduleKey) classKey) p.name).or p.default = setting defaults data p := by
    intro p hpm
    apply setting_eq
    rw [getKey_pop, if_neg (fun he => hs p hpm (.inr (.inl he))), getKey_pop, if_neg (fun he => hs p hpm (.inl he)), hu]
  have hkeys : ∀ k, k ∈ (popKey (popKey (updateKeys defaults data) moduleKey) classKey).map (·.1) ↔
      k ≠ .str classKey ∧ k ≠ .str moduleKey ∧ k ∈ data.map (·.1) ++ defaults.map (·.1) := by
    intro k
    rw [mem_pop, mem_pop, mem_update, List.mem_append]
    tauto
  constructor
  · rintro ⟨kw, h1, h2, h3, h4, h5⟩
    refine ⟨kw, h1, h2, h3, ?_, ?_⟩
    · intro q hq
      obtain ⟨raw, h6, h7⟩ := h4 q hq
      exact ⟨raw, by rw [← hget _ (List.of_mem_zip (a := q.1) (b := q.2) hq).1, h6], h7⟩
    · intro k hk
      by_cases hc : k = .str classKey
      · exact .inl (.inr hc)
      · by_cases hmk : k = .str moduleKey
        · exact .inl (.inl hmk)
        · exact .inr (h5 k ((hkeys k).2 ⟨hc, hmk, hk⟩))
  · rintro ⟨kw, h1, h2, h3, h4, h5⟩
    refine ⟨kw, h1, h2, h3, ?_, ?_⟩
    · intro q hq
      obtain ⟨raw, h6, h7⟩ := h4 q hq
      exact ⟨raw, by rw [hget _ (List.of_mem_zip (a := q.1) (b := q.2) hq).1, h6], h7⟩
    · intro k hk
      obtain ⟨hc, hmk, hk⟩ := (hkeys k).1 hk
      rcases h5 k hk with (h | h) | h
      · exact absurd h hmk
      · exact absurd h hc
      · exact h

/-- **C75.** A configuration that names a function of a module gives the result of this function, called in the same way. -/
theorem C75_function (defaults data : List (Key × PVal)) (hd : IsDict data) (n : Nat) (T name : Str) (ps : List Param) (f : Obj)
    (hp : ∀ p ∈ ps, p.kind = .normal) (hn : (ps.map (·.name)).Nodup) (hs : ∀ p ∈ ps, ¬ special p.name)
    (m o : Str) (hm : NamesFn data m o) (hnc : getKey defaults classKey = .none) (ns : Str → Option Obj) (hE : E.module m = some ns) (ho : ns o = some (.fn name ps)) (v : PVal) :
    loadConfig E true n defaults data (.cls T) f = .ok v ↔
      ∃ kw, E.call name kw = some v ∧ kw.map (·.1) = ps.map (·.name) ∧
        (∀ q ∈ ps.zip kw, ∃ raw, setting defaults data q.1 = some raw ∧ conv E true true n raw q.1.ty = .ok q.2.2) ∧
        ∀ k ∈ data.map (·.1) ++ defaults.map (·.1), (k = .str moduleKey ∨ k = .str functionKey) ∨ ∃ p ∈ ps, k = .str p.name := by
  have hu : ∀ s, getKey (updateKeys defaults data) s = (getKey data s).or (getKey defaults s) := fun s => lookupK_update _ _ hd _
  have hne : functionKey ≠ moduleKey := by decide
  have hmod : getKey (updateKeys defaults data) moduleKey = some (.str m) := by rw [hu, hm.1]; rfl
  have hcls : getKey (popKey (updateKeys defaults data) moduleKey) functionKey = some (.str o) := by
    rw [getKey_pop, if_neg hne, hu, hm.2.1]; rfl
  have hcl : getKey (popKey (updateKeys defaults data) moduleKey) classKey = .none := by
    rw [getKey_pop, if_neg (by decide), hu, hm.2.2, hnc]; rfl
  have e : loadConfig E true n defaults data (.cls T) f =
      callWith E (conv E true true n) true (.fn name ps) (popKey (popKey (updateKeys defaults data) moduleKey) functionKey) := by
    simp only [loadConfig, instantiate, hmod, hcl, hcls, importObj, asStr, hE, ho, checkInst, if_true]
  rw [e, callWith_fn hp hn]
  have hget : ∀ p ∈ ps, (getKey (popKey (popKey (updateKeys defaults data) moduleKey) functionKey) p.name).or p.default = setting defaults data p := by
    intro p hpm
    apply setting_eq
    rw [getKey_pop, if_neg (fun he => hs p hpm (.inr (.inr he))), getKey_pop, if_neg (fun he => hs p hpm (.inl he)), hu]
  have hkeys : ∀ k, k ∈ (popKey (popKey (updateKeys defaults data) moduleKey) functionKey).map (·.1) ↔
      k ≠ .str functionKey ∧ k ≠ .str moduleKey ∧ k ∈ data.map (·.1) ++ defaults.map (·.1) := by
    intro k
    rw [mem_pop, mem_pop, mem_update, List.mem_append]
    tauto
  constructor
  · rintro ⟨kw, h1, h3, h4, h5⟩
    refine ⟨kw, h1, h3, ?_, ?_⟩
    · intro q hq
      obtain ⟨raw, h6, h7⟩ := h4 q hq
      exact ⟨raw, by rw [← hget _ (List.of_mem_zip (a := q.1) (b := q.2) hq).1, h6], h7⟩
    · intro k hk
      by_cases hc : k = .str functionKey
      · exact .inl (.inr hc)
      · by_cases hmk : k = .str moduleKey
        · exact .inl (.inl hmk)
        · exact .inr (h5 k ((hkeys k).2 ⟨hc, hmk, hk⟩))
  · rintro ⟨kw, h1, h3, h4, h5⟩
    refine ⟨kw, h1, h3, ?_, ?_⟩
    · intro q hq
      obtain ⟨raw, h6, h7⟩ := h4 q hq
      exact ⟨raw, by rw [hget _ (List.of_mem_zip (a := q.1) (b := q.2) hq).1, h6], h7⟩
    · intro k hk
      obtain ⟨hc, hmk, hk⟩ := (hkeys k).1 hk
      rcases h5 k hk with (h | h) | h
      · exact absurd h hmk
      · exact absurd h hc
      · exact h

/-! ## Classes with `**kwargs` -/

theorem bindArgs_append (rec : PVal → Ty → Res PVal) (ps qs : List Param) (hp : ∀ p ∈ ps, p.kind = .normal) (d : List (Key × PVal))
    (kw : List (Str × PVal)) :
    bindArgs rec (ps ++ qs) d kw = match bindArgs rec ps d kw with
      | .ok (kw', rest) => bindArgs rec qs rest kw'
      | .error e => .error e := by
  induction ps generalizing d kw with
  | nil => rfl
  | cons p ps ih =>
    have hk := hp p (by simp)
    simp only [List.cons_append, bindArgs, hk]
    cases (getKey d p.name).or p.default with
    | none => rfl
    | some v =>
      cases hr : rec v p.ty with
      | error e => simp [hr]
      | ok r => simp only [hr]; exact ih (fun q hq => hp q (by simp [hq])) _ _

theorem bindArgs_rest {rec : PVal → Ty → Res PVal} {ps : List Param} (hp : ∀ p ∈ ps, p.kind = .normal)
    {d rest : List (Key × PVal)} {kw0 kw : List (Str × PVal)} (h : bindArgs rec ps d kw0 = .ok (kw, rest)) :
    rest = d.filter fun kv => ∀ p ∈ ps, kv.1 ≠ .str p.name := by
  induction ps generalizing d kw0 with
  | nil =>
    simp only [bindArgs, Except.ok.injEq, Prod.mk.injEq] at h
    simp [h.2]
  | cons p ps ih =>
    have hk := hp p (by simp)
    simp only [bindArgs, hk] at h
    cases hv : (getKey d p.name).or p.default with
    | none => simp [hv] at h
    | some v =>
      cases hr : rec v p.ty with
      | error e => simp [hv, hr] at h
      | ok r =>
        simp only [hv, hr] at h
        rw [ih (fun q hq => hp q (by simp [hq])) h, popKey, List.filter_filter]
        apply List.filter_congr
        intro x _
        simp only [List.mem_cons, forall_eq_or_imp, Bool.decide_and, Bool.and_comm]

theorem nodup_put {l : List (Key × PVal)} (h : IsDict l) (k : Key) (v : PVal) : IsDict (putKey l k v) := by
  induction l with
  | nil => simp [putKey, IsDict]
  | cons p l ih =>
    obtain ⟨a, w⟩ := p
    simp only [IsDict, List.map_cons, List.nodup_cons] at h
    by_cases hk : a = k
    · subst hk
      simpa [putKey, IsDict] using h
    · simp only [putKey, if_neg hk, IsDict, List.map_cons, List.nodup_cons]
      refine ⟨fun hm => ?_, ih h.2⟩
      rcases mem_put.1 hm with hm | hm
      · exact hk hm
      · exact h.1 hm

theorem nodup_update {a b : List (Key × PVal)} (h : IsDict a) : IsDict (updateKeys a b) := by
  induction b generalizing a with
  | nil => exact h
  | cons p b ih => exact ih (nodup_put h p.1 p.2)

theorem lookupK_mem {l : List (Key × PVal)} (h : IsDict l) {p : Key × PVal} (hp : p ∈ l) : lookupK l p.1 = some p.2 := by
  induction l with
  | nil => simp at hp
  | cons q l ih =>
    simp only [IsDict, List.map_cons, List.nodup_cons] at h
    rcases List.mem_cons.1 hp with rfl | hp
    · simp [lookupK]
    · have : q.1 ≠ p.1 := fun he => h.1 (he ▸ List.mem_map_of_mem (f := (·.1)) hp)
      simp [lookupK, this, ih h.2 hp]

theorem update_nil {d : List (Key × PVal)} (hd : IsDict d) : updateKeys [] d = d := by
  have put : ∀ (a : List (Key × PVal)) (k : Key) (v : PVal), k ∉ a.map (·.1) → putKey a k v = a ++ [(k, v)] := by
    intro a k v h
    induction a with
    | nil => rfl
    | cons p a ih =>
      obtain ⟨x, w⟩ := p
      simp only [List.map_cons, List.mem_cons, not_or] at h
      simp only [putKey, if_neg (Ne.symm h.1), ih h.2, List.cons_append]
  have upd : ∀ (b a : List (Key × PVal)), ((a ++ b).map (·.1)).Nodup → updateKeys a b = a ++ b := by
    intro b
    induction b with
    | nil => intro a _; simp [updateKeys]
    | cons p b ih =>
      intro a h
      have hp : p.1 ∉ a.map (·.1) := by
        intro hm
        rw [List.map_append, List.map_cons, List.nodup_append] at h
        exact h.2.2 _ hm _ (List.mem_cons_self ..) rfl
      show updateKeys (putKey a p.1 p.2) b = _
      rw [put _ _ _ hp, ih _ (by rwa [List.append_assoc]), List.append_assoc]; rfl
  exact upd d [] hd

/-- **C75.** Configurations may be nested: a setting that is a dict naming something to import, for a parameter without a checked type (no annotation,
`Any`, or an ordinary class), is loaded like a configuration file of its own (with any default class, which is not used). -/
theorem C75_nested (strict : Bool) (d : List (Key × PVal)) (hd : IsDict d) (n : Nat) (T : Ty) (hT : T = .any ∨ ∃ c, T = .cls c) (f : Obj)
    (hm : (getKey d moduleKey).isSome) (ho : (getKey d classKey).isSome ∨ (getKey d functionKey).isSome) :
    conv E strict true (n + 1) (.dict d) T = loadConfig E strict n [] d T f := by
  have hw : wantsImport d = true := by
    simp only [wantsImport, hm, Bool.true_and, Bool.or_eq_true]; exact ho
  obtain ⟨m, hm⟩ := Option.isSome_iff_exists.1 hm
  have e : ∀ g g', instantiate E (conv E strict true n) strict d T g = instantiate E (conv E strict true n) strict d T g' := by
    intro g g'
    rcases hT with rfl | ⟨c, rfl⟩ <;> simp only [instantiate, hm]
  rw [loadConfig, update_nil hd]
  rcases hT with rfl | ⟨c, rfl⟩
  · simp only [conv, hw, Bool.and_self, if_true]; exact e _ _
  · simp only [conv, hw, Bool.and_self, if_true]; exact e _ _

/-- What the names `o` of module `m` stand for: the object of the module, or, if there is no such module, of `megatron.energon`. -/
def Found (E : Env) (m o : Str) (x : Obj) : Prop :=
  (∃ ns, E.module m = some ns ∧ ns o = some x) ∨ (E.module m = .none ∧ E.energon o = some x)

theorem importObj_ok {m o : Str} {x : Obj} : importObj E (.str m) (.str o) = .ok x ↔ Found E m o x := by
  simp only [importObj, asStr, Found]
  cases hm : E.module m with
  | none => cases ho : E.energon o <;> simp
  | some ns => cases ho : ns o <;> simp [ho]

/-- **C75.** For a setting annotated `Type[c]`, the file names the class itself, which is not instantiated: it is accepted exactly if it exists and is
derived from `c`. -/
theorem C75_type (strict : Bool) (d : List (Key × PVal)) (n : Nat) (m o c : Str) (hm : Names d m o) (v : PVal) :
    conv E strict true (n + 1) (.dict d) (.type c) = .ok v ↔
      ∃ name base ps, Found E m o (.cls name base ps) ∧ E.isSub name c = true ∧ v = .other name := by
  have hw : wantsImport d = true := by simp [wantsImport, hm.1, hm.2]
  have hc : getKey (popKey d moduleKey) classKey = some (.str o) := by rw [getKey_pop, if_neg (by decide), hm.2]
  simp only [conv, hw, Bool.and_self, if_true, instantiate, hm.1, hc, ← importObj_ok]
  cases hi : importObj E (.str m) (.str o) with
  | error e => simp
  | ok x =>
    cases x with
    | cls name base ps =>
      by_cases hs : E.isSub name c = true
      · simp only [hs, if_true]
        constructor
        · intro h; injection h with h; exact ⟨_, _, _, rfl, hs, h.symm⟩
        · rintro ⟨_, _, _, h, _, rfl⟩; cases h; rfl
      · simp only [hs]
        constructor
        · intro h; cases h
        · rintro ⟨_, _, _, h, h', _⟩; cases h; exact absurd h' hs
    | fn name ps => simp
    | value w => simp

/-- **C75.** For a setting annotated `Callable`, the file names the function itself (or a class, as a function), which is not called: anything that can be
called is accepted. -/
theorem C75_callable (strict : Bool) (d : List (Key × PVal)) (n : Nat) (m o : Str)
    (hm : getKey d moduleKey = some (.str m) ∧ getKey d functionKey = some (.str o)) (v : PVal) :
    conv E strict true (n + 1) (.dict d) .callable = .ok v ↔
      ∃ name ps, ((∃ base, Found E m o (.cls name base ps)) ∨ Found E m o (.fn name ps)) ∧ v = .other name := by
  have hw : wantsImport d = true := by simp [wantsImport, hm.1, hm.2]
  have hc : getKey (popKey d moduleKey) functionKey = some (.str o) := by rw [getKey_pop, if_neg (by decide), hm.2]
  simp only [conv, hw, Bool.and_self, if_true, instantiate, hm.1, hc, ← importObj_ok]
  cases hi : importObj E (.str m) (.str o) with
  | error e => simp
  | ok x =>
    cases x with
    | cls name base ps =>
      constructor
      · intro h; injection h with h; exact ⟨_, _, .inl ⟨_, rfl⟩, h.symm⟩
      · rintro ⟨_, _, ⟨_, h⟩ | h, rfl⟩ <;> cases h; rfl
    | fn name ps =>
      constructor
      · intro h; injection h with h; exact ⟨_, _, .inr rfl, h.symm⟩
      · rintro ⟨_, _, ⟨_, h⟩ | h, rfl⟩ <;> cases h; rfl
    | value w => simp

/-- A class that is found, and derived from the annotated one; and one that is not. -/
example : conv exEnv true true 1 (.dict [(.str moduleKey, .str "m".toList), (.str classKey, .str "Foo".toList)]) (.type "Foo".toList) =
      .ok (.other "Foo".toList) ∧
    conv exEnv true true 1 (.dict [(.str moduleKey, .str "m".toList), (.str classKey, .str "Foo".toList)]) (.type "Bar".toList) = .error .json ∧
    conv exEnv true true 1 (.dict [(.str moduleKey, .str "m".toList), (.str functionKey, .str "Foo".toList)]) .callable =
      .ok (.other "Foo".toList) := ⟨by rfl, by rfl, by rfl⟩

/-- **C75.** The same for a class with `**kwargs` (like all the dataset classes of the library): each setting of the file or the caller that is no
parameter is passed on, once, as the file says or else as the caller gave it; nothing else is passed. -/
theorem C75_kwargs (defaults data : List (Key × PVal)) (hd : IsDict data) (hd' : IsDict defaults) (n : Nat) (T name : Str) (base : Option Str)
    (ps : List Param) (more : Param) (f : Obj)
    (hp : ∀ p ∈ ps, p.kind = .normal) (hmore : more.kind = .varKw) (hn : (ps.map (·.name)).Nodup) (hs : ∀ p ∈ ps, ¬ special p.name)
    (m o : Str) (hm : Names data m o) (ns : Str → Option Obj) (hE : E.module m = some ns) (ho : ns o = some (.cls name base (ps ++ [more]))) (v : PVal)
    (h : loadConfig E true n defaults data (.cls T) f = .ok v) :
      ∃ named extra, v = .obj name (named ++ extra) ∧ named.map (·.1) = ps.map (·.name) ∧
        (∀ q ∈ ps.zip named, ∃ raw, setting defaults data q.1 = some raw ∧ conv E true true n raw q.1.ty = .ok q.2.2) ∧
        (extra.map (·.1)).Nodup ∧
        (∀ k, k ∈ extra.map (·.1) ↔ Key.str k ∈ data.map (·.1) ++ defaults.map (·.1) ∧ k ≠ moduleKey ∧ k ≠ classKey ∧ ∀ p ∈ ps, k ≠ p.name) ∧
        (∀ e ∈ extra, ∃ raw, (getKey data e.1).or (getKey defaults e.1) = some raw ∧ conv E true true n raw more.ty = .ok e.2) ∧
        ∀ k ∈ data.map (·.1) ++ defaults.map (·.1), ∃ s, k = .str s := by
  have hu : ∀ s, getKey (updateKeys defaults data) s = (getKey data s).or (getKey defaults s) := fun s => lookupK_update _ _ hd _
  have hne : classKey ≠ moduleKey := by decide
  have hmod : getKey (updateKeys defaults data) moduleKey = some (.str m) := by rw [hu, hm.1]; rfl
  have hcls : getKey (popKey (updateKeys defaults data) moduleKey) classKey = some (.str o) := by
    rw [getKey_pop, if_neg hne, hu, hm.2]; rfl
  have e : loadConfig E true n defaults data (.cls T) f =
      callWith E (conv E true true n) true (.cls name base (ps ++ [more])) (popKey (popKey (updateKeys defaults data) moduleKey) classKey) := by
    simp only [loadConfig, instantiate, hmod, hcls, importObj, asStr, hE, ho, checkInst, if_true]
  rw [e] at h
  clear e
  generalize hD : popKey (popKey (updateKeys defaults data) moduleKey) classKey = D at h
  have hDget : ∀ s, s ≠ classKey → s ≠ moduleKey → getKey D s = (getKey data s).or (getKey defaults s) := by
    intro s h1 h2
    rw [← hD, getKey_pop, if_neg h1, getKey_pop, if_neg h2, hu]
  have hDkeys : ∀ k, k ∈ D.map (·.1) ↔ k ≠ .str classKey ∧ k ≠ .str moduleKey ∧ k ∈ data.map (·.1) ++ defaults.map (·.1) := by
    intro k
    rw [← hD, mem_pop, mem_pop, mem_update, List.mem_append]
    tauto
  have hDd : IsDict D := by
    rw [← hD]
    unfold IsDict popKey
    refine List.Nodup.sublist (List.Sublist.map _ ?_) (nodup_update (b := data) hd')
    exact (List.filter_sublist).trans List.filter_sublist
  simp only [callWith] at h
  rw [bindArgs_append _ _ _ hp] at h
  cases hb : bindArgs (conv E true true n) ps D [] with
  | error e => simp [hb] at h
  | ok r =>
    obtain ⟨named, rest⟩ := r
    obtain ⟨new, h1, h2, h3, h4⟩ := bindArgs_normal hp hn hb
    simp only [List.nil_append] at h1
    subst h1
    have hrest := bindArgs_rest hp hb
    simp only [hb, bindArgs, hmore] at h
    generalize hM : mapE (fun kv : Key × PVal =>
        match kv.1 with
        | .int _ => Except.error TErr.other
        | .str k => match conv E true true n kv.2 more.ty with
          | .ok v => .ok (k, v)
          | .error e => .error e) rest = M at h
    cases M with
    | error e => simp at h
    | ok extra =>
      simp only [List.isEmpty_nil, Bool.not_true, Bool.and_false, Bool.false_eq_true, if_false] at h
      by_cases ha : E.accepts name (named ++ extra) = true
      · simp only [ha, if_true, Except.ok.injEq] at h
        have hx : ∀ p ∈ rest.zip extra, p.1.1 = .str p.2.1 ∧ conv E true true n p.1.2 more.ty = .ok p.2.2 := by
          intro p hpm
          have := (mapE_ok hM).2 p hpm
          cases hk : p.1.1 with
          | int i => simp [hk] at this
          | str k =>
            cases hc : conv E true true n p.1.2 more.ty with
            | error e => simp [hk, hc] at this
            | ok w =>
              simp only [hk, hc, Except.ok.injEq] at this
              rw [← this]
              exact ⟨rfl, rfl⟩
        have hlen : extra.length = rest.length := (mapE_ok hM).1
        have hkeys : rest.map (·.1) = extra.map fun p => Key.str p.1 := by
          refine List.ext_getElem (by simp [hlen]) fun i hi hi' => ?_
          simp only [List.length_map] at hi hi'
          have := (hx (rest[i], extra[i]) (List.mem_iff_getElem.2 ⟨i, by simp; omega, by simp⟩)).1
          simpa using this
        have hrd : IsDict rest := by
          rw [hrest]
          exact List.Nodup.sublist (List.Sublist.map _ List.filter_sublist) hDd
        refine ⟨named, extra, h.symm, h2, ?_, ?_, ?_, ?_, ?_⟩
        · intro q hq
          obtain ⟨raw, h6, h7⟩ := h3 q hq
          refine ⟨raw, ?_, h7⟩
          have hqm := (List.of_mem_zip (a := q.1) (b := q.2) hq).1
          rw [hDget _ (fun he => hs _ hqm (.inr (.inl he))) (fun he => hs _ hqm (.inl he))] at h6
          exact h6
        · have : ((extra.map (·.1)).map Key.str).Nodup := by
            have h9 : (rest.map (·.1)).Nodup := hrd
            rw [hkeys] at h9
            rw [List.map_map]
            exact h9
          exact List.Nodup.of_map _ this
        · intro k
          have : k ∈ extra.map (·.1) ↔ Key.str k ∈ rest.map (·.1) := by
            rw [hkeys]
            simp only [List.mem_map, Key.str.injEq]
          rw [this, h4, hDkeys]
          simp only [ne_eq, Key.str.injEq]
          tauto
        · intro x hxm
          obtain ⟨i, hi, he⟩ := List.mem_iff_getElem.1 hxm
          have hz : (rest[i]'(by omega), x) ∈ rest.zip extra := List.mem_iff_getElem.2 ⟨i, by simp; omega, by simp [he]⟩
          obtain ⟨hk, hc⟩ := hx _ hz
          refine ⟨(rest[i]'(by omega)).2, ?_, hc⟩
          have hm1 : rest[i]'(by omega) ∈ rest := List.getElem_mem _
          have hsub : ∀ y ∈ rest, y ∈ D := fun y hy => by
            rw [hrest] at hy
            exact (List.mem_filter.1 hy).1
          have hm2 : rest[i]'(by omega) ∈ D := hsub _ hm1
          have hl := lookupK_mem hDd hm2
          simp only at hk
          rw [hk] at hl
          have hkD : Key.str x.1 ∈ D.map (·.1) := hk ▸ List.mem_map_of_mem (f := (·.1)) hm2
          obtain ⟨g1, g2, _⟩ := (hDkeys _).1 hkD
          rw [← hDget _ (fun he => g1 (by rw [he])) (fun he => g2 (by rw [he]))]
          exact hl
        · intro k hk
          by_cases hc : k = .str classKey
          · exact ⟨_, hc⟩
          · by_cases hmk : k = .str moduleKey
            · exact ⟨_, hmk⟩
            · have hkD := (hDkeys k).2 ⟨hc, hmk, hk⟩
              by_cases hpar : ∃ p ∈ ps, k = .str p.name
              · obtain ⟨p, _, he⟩ := hpar
                exact ⟨_, he⟩
              · have : k ∈ rest.map (·.1) := (h4 k).2 ⟨hkD, fun p hpm he => hpar ⟨p, hpm, he⟩⟩
                rw [hkeys] at this
                obtain ⟨x, _, he⟩ := List.mem_map.1 this
                exact ⟨_, he.symm⟩
      · simp [ha] at h

/-! ## Example and exception -/

/-- A class with a required path and a flag with a default. -/
def exParams : List Param := [⟨['p'], .normal, .any, .none⟩, ⟨['t'], .normal, .bool, some (.bool true)⟩]

/-- The caller's `p` is used, the file's `t` wins over the caller's. -/
example : loadConfig exEnv true 3 [(.str ['p'], .path ['x']), (.str ['t'], .bool true)] [(.str ['t'], .bool false)] (.cls ['D']) (.cls ['D'] .none exParams) =
    .ok (.obj ['D'] [(['p'], .path ['x']), (['t'], .bool false)]) := by rfl

/-- A module with a dataset class with `**kwargs` -/
def exNames (o : Str) : Option Obj := if o = ['D'] then some (.cls o .none (exParams ++ [⟨['k'], .varKw, .any, .none⟩])) else .none

/-- An environment with a dataset class with `**kwargs`. -/
def exEnvKw : Env := { exEnv with module := fun m => if m = ['m'] then some exNames else .none }

/-- The hypotheses of `C75_kwargs` are met: the class named in the file is called with its parameters and the remaining settings. -/
example : loadConfig exEnvKw true 3 [(.str ['p'], .path ['x']), (.str ['w'], .int 7)]
    [(.str moduleKey, .str ['m']), (.str classKey, .str ['D']), (.str ['f'], .str ['a'])] (.cls ['B']) (.cls ['B'] .none []) =
    .ok (.obj ['D'] [(['p'], .path ['x']), (['t'], .bool true), (['w'], .int 7), (['f'], .str ['a'])]) := by rfl

/-- A module with a function that takes the parameters of `exParams` and returns its second argument. -/
def exEnvFn : Env := { exEnv with
  module := fun m => if m = ['m'] then some fun o => if o = ['g'] then some (.fn o exParams) else .none else .none
  call := fun _ kw => kw[1]?.map (·.2) }

/-- The hypotheses of `C75_function` are met: the function named in the file is called with its parameters. -/
example : loadConfig exEnvFn true 3 [(.str ['p'], .path ['x'])]
    [(.str moduleKey, .str ['m']), (.str functionKey, .str ['g']), (.str ['t'], .bool false)] (.cls ['B']) (.cls ['B'] .none []) =
    .ok (.bool false) := by rfl

/-- A setting that is no parameter of the function is refused. -/
example : loadConfig exEnvFn true 3 [(.str ['p'], .path ['x'])]
    [(.str moduleKey, .str ['m']), (.str functionKey, .str ['g']), (.str ['u'], .bool false)] (.cls ['B']) (.cls ['B'] .none []) =
    .error .other := by rfl

/-- A misspelled setting is refused. -/
example : loadConfig exEnv true 3 [(.str ['p'], .path ['x'])] [(.str ['u'], .bool false)] (.cls ['D']) (.cls ['D'] .none exParams) =
    .error .other := by rfl

/-- The hypotheses of `C75_default` are met by this example. -/
example : (∀ p ∈ exParams, p.kind = .normal) ∧ (exParams.map (·.name)).Nodup ∧ (∀ p ∈ exParams, ¬ special p.name) := by
  refine ⟨?_, by decide, ?_⟩
  · intro p hp; fin_cases hp <;> rfl
  · intro p hp
    fin_cases hp <;> (rintro (h | h | h) <;> revert h <;> decide)

/-- The defaults of parameters are converted like configured data: a class whose default for a named tuple or dataclass parameter is an instance
of it cannot be called without giving this argument, although it has a default. -/
theorem C75_violated_default (n : Nat) (c : Str) (fields : List (Str × Ty × Option PVal)) (fs : List (Str × PVal)) (v : PVal) :
    loadConfig exEnv true n [] [] (.cls ['D']) (.cls ['D'] .none [⟨['o'], .normal, .data c fields, some (.data c fs)⟩]) ≠ .ok v := by
  cases n <;> simp [loadConfig, instantiate, updateKeys, getKey, lookupK, popKey, callWith, bindArgs, conv]

/-- Unlike in the call of a class from Python: it conforms to its annotation. -/
example : Conforms exEnv (.data ['c'] [(['x'], .int 1)]) (.data ['c'] [(['x'], .int, .none)]) := by
  refine .data rfl ?_
  intro p hp
  simp only [List.zip_cons_cons, List.zip_nil_right, List.mem_cons, List.not_mem_nil, or_false] at hp
  subst hp
  exact .int _

/-! ## Positional arguments -/

/-- typed_converter.py:591-625 `safe_call_function` with a list, for parameters that can be passed by position (`VAR_POSITIONAL` only last, all others
`POSITIONAL_OR_KEYWORD`): the positional arguments and the unused rest. `unused_args.pop()` takes the *last* element. -/
def bindList (rec : PVal → Ty → Res PVal) : List Param → List PVal → List PVal → Res (List PVal × List PVal)
  | [], d, args => .ok (args, d)
  | p :: ps, d, args =>
    match p.kind with
    | .varKw => bindList rec ps d args
    | .varArgs =>
      match mapE (fun v => rec v p.ty) d with
      | .error e => .error e
      | .ok more => bindList rec ps [] (args ++ more)
    | .normal =>
      match d.getLast?.or p.default with
      | .none => .error .other
      | some v =>
        match rec v p.ty with
        | .error e => .error e
        | .ok r => bindList rec ps d.dropLast (args ++ [r])

/-- The full claim C76: the i-th element of the list is the i-th argument. -/
def C76_statement : Prop :=
  ∀ (E : Env) (n : Nat) (ps : List Param) (l args : List PVal), (∀ p ∈ ps, p.kind = .normal) → ps.length = l.length →
    bindList (conv E true false n) ps l [] = .ok (args, []) → ∀ q ∈ ps.zip (l.zip args), conv E true false n q.2.1 q.1.ty = .ok q.2.2

/-- What the code does instead: the arguments are passed in the reverse order. -/
theorem C76_reversed (rec : PVal → Ty → Res PVal) (ps : List Param) (hp : ∀ p ∈ ps, p.kind = .normal) (l args : List PVal) (hl : ps.length = l.length)
    (h : bindList rec ps l [] = .ok (args, [])) : args.length = l.length ∧ ∀ q ∈ ps.zip (l.reverse.zip args), rec q.2.1 q.1.ty = .ok q.2.2 := by
  have key : ∀ (ps : List Param), (∀ p ∈ ps, p.kind = .normal) → ∀ (l a0 args : List PVal), ps.length = l.length →
      bindList rec ps l a0 = .ok (args, []) →
      ∃ new, args = a0 ++ new ∧ new.length = l.length ∧ ∀ q ∈ ps.zip (l.reverse.zip new), rec q.2.1 q.1.ty = .ok q.2.2 := by
    intro ps
    induction ps with
    | nil =>
      intro _ l a0 args hl h
      simp only [bindList, Except.ok.injEq, Prod.mk.injEq] at h
      exact ⟨[], by simp [h.1], by simp [h.2], by simp⟩
    | cons p ps ih =>
      intro hp l a0 args hl h
      rcases List.eq_nil_or_concat l with rfl | ⟨l', v, rfl⟩
      · simp at hl
      simp only [List.concat_eq_append] at *
      have hk := hp p (by simp)
      simp only [bindList, hk, List.getLast?_append, List.getLast?_singleton, Option.some_or, List.dropLast_concat] at h
      cases hr : rec v p.ty with
      | error e => simp [hr] at h
      | ok r =>
        simp only [hr] at h
        obtain ⟨new, h1, h2, h3⟩ := ih (fun q hq => hp q (by simp [hq])) l' _ _ (by simpa using hl) h
        refine ⟨r :: new, by simp [h1], by simp [h2], ?_⟩
        intro q hq
        simp only [List.reverse_append, List.reverse_cons, List.reverse_nil, List.nil_append, List.cons_append, List.zip_cons_cons,
          List.mem_cons] at hq
        rcases hq with rfl | hq
        · exact hr
        · exact h3 q hq
  obtain ⟨new, h1, h2, h3⟩ := key ps hp l [] args hl h
  simp only [List.nil_append] at h1
  subst h1
  exact ⟨h2, h3⟩

/-- **C76 is false of the code**: `f(a, b)` called with `[1, "x"]` gets `a = "x"` and `b = 1`. -/
theorem C76_violated : ¬ C76_statement := by
  intro h
  have := h exEnv 1 [⟨['a'], .normal, .any, .none⟩, ⟨['b'], .normal, .any, .none⟩] [.int 1, .str ['x']] [.str ['x'], .int 1]
    (by intro p hp; fin_cases hp <;> rfl) rfl (by rfl) (⟨['a'], .normal, .any, .none⟩, .int 1, .str ['x']) (by simp)
  simp [conv] at this

/-- **C76, the part that holds**: functions of one argument. -/
theorem C76_one_partial (rec : PVal → Ty → Res PVal) (p : Param) (hp : p.kind = .normal) (v : PVal) (args : List PVal)
    (h : bindList rec [p] [v] [] = .ok (args, [])) : ∃ r, args = [r] ∧ rec v p.ty = .ok r := by
  obtain ⟨h1, h2⟩ := C76_reversed rec [p] (by simpa using hp) [v] args rfl h
  cases args with
  | nil => simp at h1
  | cons r t =>
    cases t with
    | nil => exact ⟨r, rfl, h2 (p, v, r) (by simp)⟩
    | cons _ _ => simp at h1

end Verif.Config
