import Verif.Config.OverrideSpec
import Verif.Config.TypedProps

/-! # Overriding configuration values changes what is named, and nothing else -/

namespace Verif.Config

variable {E : Env} {X : Texts}

/-! ## Dicts and keys -/

theorem putKey_ne_nil (a : List (Key × PVal)) (k : Key) (v : PVal) : putKey a k v ≠ [] := by
  cases a with
  | nil => simp [putKey]
  | cons p a =>
    obtain ⟨k', w⟩ := p
    simp only [putKey]
    split <;> simp

theorem mem_putKey {a : List (Key × PVal)} {k : Key} {v : PVal} {p : Key × PVal} (hp : p ∈ putKey a k v) : p = (k, v) ∨ p ∈ a := by
  induction a with
  | nil => simp only [putKey, List.mem_singleton] at hp; exact .inl hp
  | cons q a ih =>
    obtain ⟨k', w⟩ := q
    simp only [putKey] at hp
    by_cases hk : k' = k
    · subst hk
      simp only [if_true, List.mem_cons] at hp
      rcases hp with hp | hp
      · exact .inl hp
      · exact .inr (by simp [hp])
    · simp only [hk, if_false, List.mem_cons] at hp
      rcases hp with hp | hp
      · exact .inr (by simp [hp])
      · rcases ih hp with h | h
        · exact .inl h
        · exact .inr (by simp [h])

theorem ovrLookup_mem {d : List (Key × PVal)} {k : Key} {v : PVal} (h : lookupK d k = some v) : (k, v) ∈ d := by
  induction d with
  | nil => simp [lookupK] at h
  | cons p d ih =>
    obtain ⟨k', w⟩ := p
    simp only [lookupK] at h
    by_cases hk : k' = k
    · simp only [hk, if_true, Option.some.injEq] at h
      subst h; simp [hk]
    · simp only [hk, if_false] at h
      simp [ih h]

theorem ovrLookup_put (a : List (Key × PVal)) (k : Key) (v : PVal) : lookupK (putKey a k v) k = some v := by
  induction a with
  | nil => simp [putKey, lookupK]
  | cons p a ih =>
    obtain ⟨k', w⟩ := p
    simp only [putKey]
    by_cases hk : k' = k
    · simp [hk, lookupK]
    · simp [hk, lookupK, ih]

theorem lookupK_put_ne {a : List (Key × PVal)} {k k' : Key} {v : PVal} (h : k' ≠ k) : lookupK (putKey a k v) k' = lookupK a k' := by
  induction a with
  | nil => simp [putKey, lookupK, Ne.symm h]
  | cons p a ih =>
    obtain ⟨k'', w⟩ := p
    simp only [putKey]
    by_cases hk : k'' = k
    · subst hk; simp [lookupK, Ne.symm h]
    · simp only [hk, if_false, lookupK, ih]

theorem keys_putKey {a : List (Key × PVal)} {k : Key} {v : PVal} (h : (a.map (·.1)).Nodup) : ((putKey a k v).map (·.1)).Nodup := by
  induction a with
  | nil => simp [putKey]
  | cons p a ih =>
    obtain ⟨k', w⟩ := p
    simp only [List.map_cons, List.nodup_cons] at h
    simp only [putKey]
    by_cases hk : k' = k
    · simp only [hk, if_true, List.map_cons, List.nodup_cons]; rw [← hk]; exact h
    · simp only [hk, if_false, List.map_cons, List.nodup_cons]
      refine ⟨?_, ih h.2⟩
      intro hc
      obtain ⟨q, hq, he⟩ := List.mem_map.1 hc
      rcases mem_putKey hq with rfl | hq
      · exact hk he.symm
      · exact h.1 (List.mem_map.2 ⟨q, hq, he⟩)

theorem dots_ne (s : Str) : dots s ≠ [] := by
  cases s with
  | nil => simp [dots]
  | cons c l =>
    simp only [dots]
    split
    · simp
    · split <;> simp

theorem dots_none {k : Str} (h : firstDot k = .none) : dots k = [k] := by
  induction k with
  | nil => rfl
  | cons c l ih =>
    simp only [firstDot] at h
    by_cases hc : c = '.'
    · simp [hc] at h
    · simp only [hc, if_false] at h
      cases hl : firstDot l with
      | none => simp [dots, hc, ih hl]
      | some p => rw [hl] at h; simp at h

theorem dots_some {k a b : Str} (h : firstDot k = some (a, b)) : dots k = a :: dots b := by
  induction k generalizing a with
  | nil => simp [firstDot] at h
  | cons c l ih =>
    simp only [firstDot] at h
    by_cases hc : c = '.'
    · simp only [hc, if_true, Option.some.injEq, Prod.mk.injEq] at h
      obtain ⟨rfl, rfl⟩ := h
      simp [dots, hc]
    · simp only [hc, if_false] at h
      cases hl : firstDot l with
      | none => rw [hl] at h; simp at h
      | some p =>
        obtain ⟨a', b'⟩ := p
        rw [hl] at h
        simp only [Option.some.injEq, Prod.mk.injEq] at h
        obtain ⟨rfl, rfl⟩ := h
        simp [dots, hc, ih hl]

/-- Everything names something. -/
theorem names_total : (o : PVal) → ∃ q x, Named o q x
  | .dict [] => ⟨[], _, .leaf (by intro d h; injection h with h; exact h.symm)⟩
  | .dict ((k, w) :: d) => by
    obtain ⟨q, x, h⟩ := names_total w
    exact ⟨_, x, .key (List.mem_cons_self ..) h⟩
  | .none => ⟨[], _, .leaf (by intro d h; cases h)⟩
  | .bool _ => ⟨[], _, .leaf (by intro d h; cases h)⟩
  | .int _ => ⟨[], _, .leaf (by intro d h; cases h)⟩
  | .float _ _ => ⟨[], _, .leaf (by intro d h; cases h)⟩
  | .str _ => ⟨[], _, .leaf (by intro d h; cases h)⟩
  | .list _ => ⟨[], _, .leaf (by intro d h; cases h)⟩
  | .tuple _ => ⟨[], _, .leaf (by intro d h; cases h)⟩
  | .path _ => ⟨[], _, .leaf (by intro d h; cases h)⟩
  | .named _ _ => ⟨[], _, .leaf (by intro d h; cases h)⟩
  | .data _ _ => ⟨[], _, .leaf (by intro d h; cases h)⟩
  | .obj _ _ => ⟨[], _, .leaf (by intro d h; cases h)⟩
  | .other _ => ⟨[], _, .leaf (by intro d h; cases h)⟩

theorem names_put {m : List (Key × PVal)} {k : Key} {v x : PVal} {q : List Str} (h : Named (.dict (putKey m k v)) q x) :
    (∃ q', Named v q' x ∧ q = keyPath k ++ q') ∨ Named (.dict m) q x := by
  generalize ho : PVal.dict (putKey m k v) = o at h
  cases h with
  | leaf hl => exact absurd (hl _ ho.symm) (putKey_ne_nil _ _ _)
  | @key d k' w _ q' hm hn =>
    cases ho
    rcases mem_putKey hm with e | hm
    · cases e
      exact .inl ⟨q', hn, rfl⟩
    · exact .inr (.key hm hn)

theorem names_single {k : Key} {v x : PVal} {q : List Str} (h : Named (.dict [(k, v)]) q x) : ∃ q', Named v q' x ∧ q = keyPath k ++ q' := by
  generalize ho : PVal.dict [(k, v)] = o at h
  cases h with
  | leaf hl => exact absurd (hl _ ho.symm) (by simp)
  | @key d k' w _ q' hm hn =>
    cases ho
    cases List.mem_singleton.1 hm
    exact ⟨q', hn, rfl⟩

/-- What the split dict names, the given one names. -/
theorem split_from {d res l : List (Key × PVal)} (h : splitKeys d res = .ok l) {k : Key} {w x : PVal} {q : List Str} (hm : (k, w) ∈ l)
    (hn : Named w q x) :
    (∃ s k0 w0 q0, k = .str s ∧ (k0, w0) ∈ d ∧ Named w0 q0 x ∧ keyPath k0 ++ q0 = s :: q) ∨ ∃ w', (k, w') ∈ res ∧ Named w' q x := by
  induction d generalizing res with
  | nil =>
    simp only [splitKeys, Except.ok.injEq] at h
    subst h
    exact .inr ⟨w, hm, hn⟩
  | cons e d ih =>
    obtain ⟨k1, v⟩ := e
    cases k1 with
    | int n => simp [splitKeys] at h
    | str k1 =>
      simp only [splitKeys] at h
      have up : (∃ s k0 w0 q0, k = .str s ∧ (k0, w0) ∈ d ∧ Named w0 q0 x ∧ keyPath k0 ++ q0 = s :: q) →
          ∃ s k0 w0 q0, k = .str s ∧ (k0, w0) ∈ (Key.str k1, v) :: d ∧ Named w0 q0 x ∧ keyPath k0 ++ q0 = s :: q := by
        rintro ⟨s, k0, w0, q0, h1, h2, h3⟩
        exact ⟨s, k0, w0, q0, h1, List.mem_cons_of_mem _ h2, h3⟩
      cases hd : firstDot k1 with
      | none =>
        simp only [hd] at h
        split at h
        · cases h
        · rcases ih h with h' | ⟨w', hw', hn'⟩
          · exact .inl (up h')
          · rcases mem_putKey hw' with e | hw'
            · cases e
              exact .inl ⟨k1, .str k1, v, q, rfl, List.mem_cons_self .., hn', by simp [keyPath, dots_none hd]⟩
            · exact .inr ⟨w', hw', hn'⟩
      | some p =>
        obtain ⟨outer, inner⟩ := p
        simp only [hd] at h
        cases hl : lookupK res (.str outer) with
        | none =>
          simp only [hl] at h
          rcases ih h with h' | ⟨w', hw', hn'⟩
          · exact .inl (up h')
          · rcases mem_putKey hw' with e | hw'
            · cases e
              obtain ⟨q', hq', rfl⟩ := names_single hn'
              exact .inl ⟨outer, .str k1, v, q', rfl, List.mem_cons_self .., hq', by simp [keyPath, dots_some hd]⟩
            · exact .inr ⟨w', hw', hn'⟩
        | some w0 =>
          simp only [hl] at h
          cases w0 with
          | dict m =>
            simp only at h
            rcases ih h with h' | ⟨w', hw', hn'⟩
            · exact .inl (up h')
            · rcases mem_putKey hw' with e | hw'
              · cases e
                rcases names_put hn' with ⟨q', hq', rfl⟩ | hn''
                · exact .inl ⟨outer, .str k1, v, q', rfl, List.mem_cons_self .., hq', by simp [keyPath, dots_some hd]⟩
                · exact .inr ⟨_, ovrLookup_mem hl, hn''⟩
              · exact .inr ⟨w', hw', hn'⟩
          | _ => simp at h

theorem split_names {d l : List (Key × PVal)} (h : splitKeys d [] = .ok l) {k : Key} {w x : PVal} {q : List Str} (hm : (k, w) ∈ l)
    (hn : Named w q x) : ∃ s, k = .str s ∧ Named (.dict d) (s :: q) x := by
  rcases split_from h hm hn with ⟨s, k0, w0, q0, h1, h2, h3, h4⟩ | ⟨_, h', _⟩
  · exact ⟨s, h1, h4 ▸ .key h2 h3⟩
  · cases h'

theorem undash_mem {l l' : List (Key × PVal)} (h : undash l = some l') {k : Key} {w : PVal} (hm : (k, w) ∈ l') :
    ∃ s, (.str s, w) ∈ l ∧ k = .str (und s) := by
  have key : ∀ (l acc l' : List (Key × PVal)), l.foldl (fun acc kv => match acc, kv.1 with
          | some a, .str s => some (putKey a (.str (s.map fun c => if c = '-' then '_' else c)) kv.2)
          | _, _ => .none) (some acc) = some l' → ∀ p ∈ l', p ∈ acc ∨ ∃ s, (.str s, p.2) ∈ l ∧ p.1 = .str (und s) := by
    intro l
    induction l with
    | nil => intro acc l' h p hp; cases h; exact .inl hp
    | cons e l ih =>
      intro acc l' h p hp
      obtain ⟨k1, v⟩ := e
      cases k1 with
      | int n =>
        exfalso
        have no : ∀ (l : List (Key × PVal)), l.foldl (fun acc kv => match acc, kv.1 with
          | some a, .str s => some (putKey a (.str (s.map fun c => if c = '-' then '_' else c)) kv.2)
          | _, _ => .none) (.none : Option (List (Key × PVal))) = .none := by
          intro l
          induction l with
          | nil => rfl
          | cons e l ih => exact ih
        have h' : l.foldl (fun acc kv => match acc, kv.1 with
          | some a, .str s => some (putKey a (.str (s.map fun c => if c = '-' then '_' else c)) kv.2)
          | _, _ => .none) (.none : Option (List (Key × PVal))) = some l' := h
        rw [no] at h'
        cases h'
      | str s =>
        rcases ih _ l' h p hp with h1 | ⟨s', h1, h2⟩
        · rcases mem_putKey h1 with rfl | h1
          · exact .inr ⟨s, List.mem_cons_self .., rfl⟩
          · exact .inl h1
        · exact .inr ⟨s', List.mem_cons_of_mem _ h1, h2⟩
  rcases key l [] l' h _ hm with h' | ⟨s, h1, h2⟩
  · cases h'
  · exact ⟨s, h1, h2⟩

/-- What the overrides of a record name -/
theorem record_names {d l l' : List (Key × PVal)} (h : splitKeys d [] = .ok l) (h' : undash l = some l') {f : Str} {o x : PVal} {q : List Str}
    (hg : getKey l' f = some o) (hn : Named o q x) : ∃ s, und s = f ∧ Named (.dict d) (s :: q) x := by
  obtain ⟨s, hs, e⟩ := undash_mem h' (getKey_mem hg)
  obtain ⟨s', e', hn'⟩ := split_names h hs hn
  cases e'
  exact ⟨s, (Key.str.inj e).symm, hn'⟩

theorem und_id {s : Str} (h : '-' ∉ s) : und s = s := by
  unfold und
  induction s with
  | nil => rfl
  | cons c s ih =>
    have hc : c ≠ '-' := fun e => h (by simp [e])
    rw [List.map_cons, ih (fun e => h (List.mem_cons_of_mem _ e)), if_neg hc]

theorem und_und (s : Str) : und (und s) = und s := by
  unfold und
  rw [List.map_map]
  apply List.map_congr_left
  intro c _
  simp only [Function.comp]
  split
  · decide
  · rfl

/-! ## Records -/

/-- What is in the arguments of the new instance -/
theorem ovrFields_at {rec : PVal → PVal → Ty → Res PVal} {v : PVal} {l : List (Key × PVal)} {fields : List (Str × Ty × Option PVal)}
    {kw : List (Str × PVal)} (h : ovrFields rec v l fields = .ok kw) (hn : (fields.map (·.1)).Nodup) :
    kw.map (·.1) = fields.map (·.1) ∧ ∀ f ∈ fields, ∃ old r, attr v f.1 = some old ∧ kw.lookup f.1 = some r ∧
      match getKey l f.1 with
      | .none => r = old
      | some o => rec old o f.2.1 = .ok r := by
  induction fields generalizing kw with
  | nil =>
    unfold ovrFields at h
    simp only [mapE, Except.ok.injEq] at h
    subst h
    exact ⟨rfl, by simp⟩
  | cons f fs ih =>
    unfold ovrFields at h
    simp only [mapE] at h
    simp only [List.map_cons, List.nodup_cons] at hn
    cases hf : ovrField rec v l f with
    | error e => rw [hf] at h; cases h
    | ok fr =>
      rw [hf] at h; dsimp only at h
      cases hm : mapE (ovrField rec v l) fs with
      | error e => rw [hm] at h; cases h
      | ok m =>
        rw [hm] at h
        have e := (Except.ok.inj h).symm
        have hf' : ∃ old r, attr v f.1 = some old ∧ fr = (f.1, r) ∧
            match getKey l f.1 with
            | .none => r = old
            | some o => rec old o f.2.1 = .ok r := by
          unfold ovrField at hf
          cases ha : attr v f.1 with
          | none => rw [ha] at hf; cases hf
          | some old =>
            rw [ha] at hf; dsimp only at hf
            cases hg : getKey l f.1 with
            | none => rw [hg] at hf; exact ⟨old, old, rfl, (Except.ok.inj hf).symm, rfl⟩
            | some o =>
              rw [hg] at hf; dsimp only at hf
              cases hr : rec old o f.2.1 with
              | error e => rw [hr] at hf; cases hf
              | ok r => rw [hr] at hf; exact ⟨old, r, rfl, (Except.ok.inj hf).symm, hr⟩
        obtain ⟨old, r, ha, rfl, hr⟩ := hf'
        obtain ⟨h1, h2⟩ := ih hm hn.2
        subst e
        refine ⟨by simp [h1], ?_⟩
        intro f' hf'
        rcases List.mem_cons.1 hf' with rfl | hf'
        · exact ⟨old, r, ha, by simp [List.lookup], hr⟩
        · obtain ⟨old', r', a1, a2, a3⟩ := h2 f' hf'
          refine ⟨old', r', a1, ?_, a3⟩
          have hne : f'.1 ≠ f.1 := fun e => hn.1 (e ▸ List.mem_map.2 ⟨f', hf', rfl⟩)
          simp only [List.lookup, beq_eq_false_iff_ne.2 hne]
          exact a2

theorem ovrRecord_ok {rec : PVal → PVal → Ty → Res PVal} {strict : Bool} {v : PVal} {d : List (Key × PVal)} {c : Str}
    {fields : List (Str × Ty × Option PVal)} {make : List (Str × PVal) → PVal} {r : PVal}
    (h : ovrRecord E rec strict v d c fields make = .ok r) :
    ∃ l l' kw, splitKeys d [] = .ok l ∧ undash l = some l' ∧ ovrFields rec v l' fields = .ok kw ∧ r = make kw := by
  unfold ovrRecord at h
  cases h1 : splitKeys d [] with
  | error e => rw [h1] at h; cases h
  | ok l =>
    rw [h1] at h; dsimp only at h
    cases h2 : undash l with
    | none => rw [h2] at h; cases h
    | some l' =>
      rw [h2] at h; dsimp only at h
      cases h3 : ovrFields rec v l' fields with
      | error e => rw [h3] at h; cases h
      | ok kw =>
        rw [h3] at h; dsimp only at h
        split at h
        · cases h
        · exact ⟨l, l', kw, rfl, h2, h3, (guardJson_ok.1 h).2.symm⟩

/-! ## Lists -/

theorem ovrList_ok {rec : PVal → PVal → Res PVal} {bound : Option Nat} {v : PVal} {d : List (Key × PVal)} {make : List PVal → PVal} {r : PVal}
    (h : ovrList X rec bound v d make = .ok r) :
    ∃ l li xs ys, splitKeys d [] = .ok l ∧ mapE (indexKey X) l = .ok li ∧ elems v = some xs ∧ r = make ys ∧ ys.length = xs.length ∧
      xs ≠ [] ∧ ∀ (i : Nat) x y, xs[i]? = some x → ys[i]? = some y →
        match atIndex li i with
        | .none => y = x
        | some o => rec x o = .ok y := by
  unfold ovrList at h
  cases h1 : splitKeys d [] with
  | error e => rw [h1] at h; cases h
  | ok l =>
    rw [h1] at h; dsimp only at h
    cases h2 : indexKeys X l with
    | error e => rw [h2] at h; cases h
    | ok li =>
      rw [h2] at h; dsimp only at h
      have h2' : mapE (indexKey X) l = .ok li := by
        unfold indexKeys at h2
        split at h2
        · exact h2
        · cases h2
      cases h3 : maxIndex li with
      | none => rw [h3] at h; simp at h
      | some m =>
        cases h4 : elems v with
        | none => rw [h3, h4] at h; simp at h
        | some xs =>
          rw [h3, h4] at h
          dsimp only at h
          split at h
          · cases h
          · split at h
            · obtain ⟨ys, hy, rfl⟩ := map_eq_ok h
              obtain ⟨hl, hz⟩ := mapE_ok hy
              rw [List.length_range] at hl
              have hle : max (m.toNat + 1) xs.length ≤ xs.length := by
                by_contra hc
                obtain ⟨b, _, hb⟩ := (mapE_ok_mem hy).1 xs.length (List.mem_range.2 (by omega))
                unfold ovrElem at hb
                simp at hb
              have hlen : ys.length = xs.length := by omega
              refine ⟨l, li, xs, ys, rfl, h2', rfl, rfl, hlen, ?_, ?_⟩
              · intro e; subst e; simp at hle
              · intro i x y hx hy'
                have hi : i < xs.length := by
                  by_contra hc
                  rw [List.getElem?_eq_none (by omega)] at hx; cases hx
                have hp : (i, y) ∈ (List.range (max (m.toNat + 1) xs.length)).zip ys := by
                  rw [List.mem_iff_getElem?]
                  refine ⟨i, ?_⟩
                  rw [List.getElem?_zip_eq_some]
                  refine ⟨?_, hy'⟩
                  rw [List.getElem?_range (by omega)]
                have := hz _ hp
                unfold ovrElem at this
                dsimp only at this
                rw [hx] at this
                dsimp only at this
                cases ha : atIndex li i with
                | none => rw [ha] at this; exact (Except.ok.inj this).symm
                | some o => rw [ha] at this; exact this
            · cases h

theorem atIndex_mem {li : List (Int × PVal)} {i : Int} {o : PVal} (h : atIndex li i = some o) : (i, o) ∈ li := by
  unfold atIndex at h
  cases hf : li.reverse.find? fun p => p.1 = i with
  | none => rw [hf] at h; cases h
  | some p =>
    rw [hf] at h
    have h1 := List.mem_of_find?_eq_some hf
    have h2 := List.find?_some hf
    simp only [decide_eq_true_eq] at h2
    simp only [Option.map_some, Option.some.injEq] at h
    subst h2; subst h
    exact List.mem_reverse.1 h1

/-- What the overrides of a list name -/
theorem list_names {d l : List (Key × PVal)} {li : List (Int × PVal)} (h : splitKeys d [] = .ok l) (h' : mapE (indexKey X) l = .ok li) {i : Int}
    {o x : PVal} {q : List Str} (hg : (i, o) ∈ li) (hn : Named o q x) :
    ∃ s, X.int s = some i ∧ (Key.str s, o) ∈ l ∧ Named (.dict d) (s :: q) x := by
  obtain ⟨⟨k, w⟩, hm, hk⟩ := (mapE_ok_mem h').2 _ hg
  unfold indexKey at hk
  cases k with
  | int n => cases hk
  | str s =>
    dsimp only at hk
    cases hs : X.int s with
    | none => rw [hs] at hk; cases hk
    | some j =>
      rw [hs] at hk
      cases hk
      obtain ⟨s', e', hn'⟩ := split_names h hm hn
      cases e'
      exact ⟨s, hs, hm, hn'⟩

/-- The element with this index -/
def nthAt (X : Texts) (l : List PVal) (k : Str) : Option PVal :=
  match X.int k with
  | some i => if 0 ≤ i then l[i.toNat]? else .none
  | .none => .none

/-- A list with some elements replaced -/
theorem place_elems {v r : PVal} {xs ys : List PVal} {k : Str} {q : List Str} (hv : child X v k = nthAt X xs k) (hr : child X r k = nthAt X ys k)
    (hlen : ys.length = xs.length)
    (h : ∀ (i : Nat) x y, X.int k = some (i : Int) → xs[i]? = some x → ys[i]? = some y → place X y q = place X x q) :
    place X r (k :: q) = place X v (k :: q) := by
  simp only [place, hv, hr, nthAt]
  cases hk : X.int k with
  | none => rfl
  | some i =>
    dsimp only
    by_cases hi : 0 ≤ i
    · simp only [hi, if_true]
      by_cases hb : i.toNat < xs.length
      · have e1 : xs[i.toNat]? = some xs[i.toNat] := List.getElem?_eq_getElem hb
        have e2 : ys[i.toNat]? = some (ys[i.toNat]'(by omega)) := List.getElem?_eq_getElem (by omega)
        rw [e1, e2]
        exact h i.toNat _ _ (by rw [hk, Int.toNat_of_nonneg hi]) e1 e2
      · rw [List.getElem?_eq_none (by omega), List.getElem?_eq_none (by omega)]
    · simp only [hi, if_false]

theorem lookup_none {fs : List (Str × PVal)} {k : Str} (h : k ∉ fs.map (·.1)) : fs.lookup k = .none := by
  induction fs with
  | nil => rfl
  | cons f fs ih =>
    simp only [List.map_cons, List.mem_cons, not_or] at h
    simp only [List.lookup, beq_eq_false_iff_ne.2 h.1]
    exact ih h.2

/-- A record with some fields replaced -/
theorem place_fields {rec : PVal → PVal → Ty → Res PVal} {v r : PVal} {l : List (Key × PVal)} {fields : List (Str × Ty × Option PVal)}
    {kw fs : List (Str × PVal)} {k : Str} {q : List Str} (h : ovrFields rec v l fields = .ok kw) (hn : (fields.map (·.1)).Nodup)
    (ha : attr v k = fs.lookup k) (hv : child X v k = fs.lookup k) (hr : child X r k = kw.lookup k) (hfs : fs.map (·.1) = fields.map (·.1))
    (hrec : ∀ f ∈ fields, ∀ old o r, f.1 = k → fs.lookup k = some old → getKey l k = some o → rec old o f.2.1 = .ok r → place X r q = place X old q) :
    place X r (k :: q) = place X v (k :: q) := by
  obtain ⟨h1, h2⟩ := ovrFields_at h hn
  simp only [place, hv, hr]
  by_cases hk : k ∈ fields.map (·.1)
  · obtain ⟨f, hf, rfl⟩ := List.mem_map.1 hk
    obtain ⟨old, r', a1, a2, a3⟩ := h2 f hf
    rw [ha] at a1
    rw [a1, a2]
    dsimp only
    cases hg : getKey l f.1 with
    | none => rw [hg] at a3; rw [a3]
    | some o => rw [hg] at a3; exact hrec f hf old o r' rfl a1 hg a3
  · rw [lookup_none (fs := kw) (h1 ▸ hk), lookup_none (fs := fs) (hfs ▸ hk)]

theorem named_class {c : Str} {fs : List (Str × PVal)} {T : Ty} (hT : Built X Leaf T) (h : Conforms E (.named c fs) T) :
    ∃ fields, X.classes c = some (.named c fields) ∧ Conforms E (.named c fs) (.named c fields) := by
  induction hT with
  | leaf hl =>
    exfalso
    cases hl with
    | prim hp => cases hp <;> cases h
    | literal l =>
      cases h with
      | literal _ h2 => simp [litEq] at h2
    | _ => cases h
  | union hts ih =>
    cases h with
    | union ht hc => exact ih _ ht hc
  | named hc _ _ _ _ =>
    cases h with
    | named h1 h2 => exact ⟨_, hc, .named h1 h2⟩
  | data => cases h
  | list => cases h
  | tupleOf => cases h

theorem data_class {c : Str} {fs : List (Str × PVal)} {T : Ty} (hT : Built X Leaf T) (h : Conforms E (.data c fs) T) :
    ∃ fields, X.classes c = some (.data c fields) ∧ Conforms E (.data c fs) (.data c fields) := by
  induction hT with
  | leaf hl =>
    exfalso
    cases hl with
    | prim hp => cases hp <;> cases h
    | literal l =>
      cases h with
      | literal _ h2 => simp [litEq] at h2
    | _ => cases h
  | union hts ih =>
    cases h with
    | union ht hc => exact ih _ ht hc
  | data hc _ _ _ _ =>
    cases h with
    | data h1 h2 => exact ⟨_, hc, .data h1 h2⟩
  | named => cases h
  | list => cases h
  | tupleOf => cases h

theorem pickType_some {v : PVal} {ts : List Ty} {t : Ty} (h : pickType E v ts = .ok (some t)) : t ∈ ts ∧ instDeep E v t = .ok true := by
  induction ts with
  | nil => simp [pickType] at h
  | cons a ts ih =>
    simp only [pickType] at h
    cases ha : instDeep E v a with
    | error e => rw [ha] at h; cases h
    | ok b =>
      rw [ha] at h
      cases b with
      | true => simp only [Except.ok.injEq, Option.some.injEq] at h; subst h; exact ⟨List.mem_cons_self .., ha⟩
      | false => exact ⟨List.mem_cons_of_mem _ (ih h).1, (ih h).2⟩

theorem prim_ovr_dict {T : Ty} (hT : Prim T) {strict imports : Bool} {n : Nat} {v : PVal} {d : List (Key × PVal)} {r : PVal} :
    ovr E X strict imports n v (.dict d) (.ty T) ≠ .ok r := by
  intro h
  cases n with
  | zero => simp [ovr] at h
  | succ n => cases hT <;> simp [ovr, ovrInt, ovrFloat, ovrBool, ovrNone, guardJson, isStr, isInt, isFloat, isBool, isNone] at h

/-- The class of a primitive value -/
theorem prim_typeOf {v : PVal} {t : Ty} (ht : Prim t) (h : Conforms E v t) : ∃ t', Prim t' ∧ typeOf X v = some (.ty t') ∧ Conforms E v t' := by
  cases ht <;> cases h
  · exact ⟨_, .str, rfl, .str _⟩
  · exact ⟨_, .int, rfl, .int _⟩
  · exact ⟨_, .bool, rfl, .bool _⟩
  · exact ⟨_, .float, rfl, .float _ _⟩
  · exact ⟨_, .int, rfl, .int _⟩
  · exact ⟨_, .bool, rfl, .bool _⟩
  · exact ⟨_, .bool, rfl, .bool _⟩
  · exact ⟨_, .none, rfl, .none⟩

theorem dictResult {rec : PVal → PVal → Res PVal} {cv : PVal → Res PVal} {v r : PVal} {d : List (Key × PVal)} (h : ovrDict X rec cv v d = .ok r) :
    (∃ a, v = .dict a) ∧ ∃ b, r = .dict b := by
  unfold ovrDict at h
  cases h1 : splitKeys d [] with
  | error e => rw [h1] at h; cases h
  | ok l =>
    rw [h1] at h
    cases v with
    | dict items =>
      dsimp only at h
      split at h
      · cases h
      · split at h
        · cases h
        · obtain ⟨b, _, rfl⟩ := map_eq_ok h
          exact ⟨⟨_, rfl⟩, b, rfl⟩
    | _ => cases h

/-- The type of a union that is chosen for a value of the union is a type of the value, if the overrides are accepted. -/
theorem pick_conforms (hsub : ∀ a b, E.isSub a b = true → a = b) {strict imports : Bool} {n : Nat} {v r : PVal} {d : List (Key × PVal)} {t T : Ty}
    (hT : Built X Leaf T) (hv : Conforms E v T) (ht : Built X Leaf t) (hi : instDeep E v t = .ok true)
    (h : ovr E X strict imports n v (.dict d) (.ty t) = .ok r) : Conforms E v t ∨ ((∃ c args, v = .obj c args) ∧ ∀ k, child X r k = .none) := by
  cases n with
  | zero => simp [ovr] at h
  | succ n =>
  have obj : ∀ (c c' : Str) (args : List (Str × PVal)) (fields : List (Str × Ty × Option PVal)) (make : List (Str × PVal) → PVal), v = .obj c args →
      ovrRecord E (fun old o t => ovr E X strict imports n old o (.ty t)) strict v d c' fields make = .ok r → r = make [] := by
    intro c c' args fields make e h
    obtain ⟨l, l', kw, _, _, h3, rfl⟩ := ovrRecord_ok h
    subst e
    cases fields with
    | nil => unfold ovrFields at h3; simp only [mapE, Except.ok.injEq] at h3; rw [← h3]
    | cons f fs => unfold ovrFields at h3; simp [mapE, ovrField, attr] at h3
  cases ht with
  | leaf hl =>
    cases hl with
    | prim hp => exact absurd h (prim_ovr_dict hp)
    | literal l => simp [instDeep] at hi
    | dict t => simp [instDeep] at hi
    | rawDict =>
      cases v with
      | dict a => exact .inl (.rawDict _)
      | _ => simp [instDeep] at hi
    | path => simp [ovr] at h
    | type c => simp [instDeep] at hi
    | callable => simp [instDeep] at hi
    | cls c => simp [ovr] at h
    | tuple hts =>
      exfalso
      simp only [ovr] at h
      obtain ⟨l, li, xs, ys, _, _, h3, _, _, h6, _⟩ := ovrList_ok h
      simp only [instDeep] at hi
      split at hi
      · simp only [elems, Option.some.injEq] at h3; exact h6 h3.symm
      · simp only [elems, List.map_nil, Option.some.injEq] at h3; exact h6 h3.symm
      · cases hi
  | union => simp [instDeep] at hi
  | @named c fields hc hn hd hb =>
    simp only [instDeep] at hi
    cases v with
    | named c' fs =>
      simp only [classOf, Except.ok.injEq, Bool.or_eq_true, decide_eq_true_eq] at hi
      have e : c' = c := hi.elim id (hsub _ _)
      subst e
      obtain ⟨fields', h1, h2⟩ := named_class hT hv
      rw [hc] at h1
      cases h1
      exact .inl h2
    | data c' fs =>
      simp only [classOf, Except.ok.injEq, Bool.or_eq_true, decide_eq_true_eq] at hi
      have e : c' = c := hi.elim id (hsub _ _)
      subst e
      obtain ⟨fields', h1, h2⟩ := data_class hT hv
      rw [hc] at h1
      cases h1
    | obj c' args =>
      simp only [ovr] at h
      have := obj _ _ _ _ _ rfl h
      subst this
      exact .inr ⟨⟨_, _, rfl⟩, fun _ => rfl⟩
    | _ => simp [classOf] at hi
  | @data c fields hc hn hd hb =>
    simp only [instDeep] at hi
    cases v with
    | data c' fs =>
      simp only [classOf, Except.ok.injEq, Bool.or_eq_true, decide_eq_true_eq] at hi
      have e : c' = c := hi.elim id (hsub _ _)
      subst e
      obtain ⟨fields', h1, h2⟩ := data_class hT hv
      rw [hc] at h1
      cases h1
      exact .inl h2
    | named c' fs =>
      simp only [classOf, Except.ok.injEq, Bool.or_eq_true, decide_eq_true_eq] at hi
      have e : c' = c := hi.elim id (hsub _ _)
      subst e
      obtain ⟨fields', h1, h2⟩ := named_class hT hv
      rw [hc] at h1
      cases h1
    | obj c' args =>
      simp only [ovr] at h
      have := obj _ _ _ _ _ rfl h
      subst this
      exact .inr ⟨⟨_, _, rfl⟩, fun _ => rfl⟩
    | _ => simp [classOf] at hi
  | list => simp [instDeep] at hi
  | tupleOf =>
    exfalso
    simp only [ovr] at h
    obtain ⟨l, li, xs, ys, _, _, h3, _, _, h6, _⟩ := ovrList_ok h
    simp only [instDeep] at hi
    split at hi
    · simp only [elems, Option.some.injEq] at h3; exact h6 h3.symm
    · simp only [elems, List.map_nil, Option.some.injEq] at h3; exact h6 h3.symm
    · cases hi

theorem mem_zip_fields {fs : List (Str × PVal)} {fields : List (Str × Ty × Option PVal)} (h : fs.map (·.1) = fields.map (·.1))
    (hn : (fields.map (·.1)).Nodup) {f : Str × Ty × Option PVal} (hf : f ∈ fields) {old : PVal} (hl : fs.lookup f.1 = some old) :
    ((f.1, old), f) ∈ fs.zip fields := by
  induction fs generalizing fields with
  | nil => cases hl
  | cons p fs ih =>
    cases fields with
    | nil => cases hf
    | cons g fields =>
      simp only [List.map_cons, List.cons.injEq] at h
      simp only [List.map_cons, List.nodup_cons] at hn
      rcases List.mem_cons.1 hf with rfl | hf
      · have : (f.1 == p.1) = true := by rw [h.1]; simp
        simp only [List.lookup, this] at hl
        cases hl
        rw [← h.1]
        exact List.mem_cons_self ..
      · have hne : f.1 ≠ p.1 := fun e => hn.1 (by rw [← h.1, ← e]; exact List.mem_map.2 ⟨f, hf, rfl⟩)
        simp only [List.lookup, beq_eq_false_iff_ne.2 hne] at hl
        exact List.mem_cons_of_mem _ (ih h.2 hn.2 hf hl)

theorem only_named (hsub : ∀ a b, E.isSub a b = true → a = b) {strict imports : Bool} (n : Nat) (v o : PVal) (T : Ty) (r : PVal) (p : List Str)
    (hT : Built X Leaf T) (hv : Conforms E v T) (h : ovr E X strict imports n v o (.ty T) = .ok r)
    (hp : ∀ q x, Named o q x → ¬ Related X q p) : place X r p = place X v p := by
  induction n generalizing v o T r p with
  | zero => simp [ovr] at h
  | succ n ih =>
    cases p with
    | nil =>
      obtain ⟨q, x, hq⟩ := names_total o
      exact absurd (.right q) (hp q x hq)
    | cons k p =>
      have hd : ∃ d, o = .dict d := by
        by_contra hc
        exact hp [] o (.leaf fun d e => absurd ⟨d, e⟩ hc) (.left _)
      obtain ⟨d, rfl⟩ := hd
      have sub : ∀ (s : Str) (w : PVal), SameStep X s k → (∀ q x, Named w q x → Named (.dict d) (s :: q) x) →
          ∀ q x, Named w q x → ¬ Related X q p := fun s w hs hw q x hn hr => hp _ _ (hw q x hn) (.cons hs hr)
      have elemsCase : ∀ (rec : PVal → PVal → Res PVal) (bound : Option Nat) (make : List PVal → PVal) (xs0 : List PVal),
          elems v = some xs0 → child X v k = nthAt X xs0 k → (∀ ys, child X (make ys) k = nthAt X ys k) →
          (∀ x ∈ xs0, ∀ o y, rec x o = .ok y → (∀ q x, Named o q x → ¬ Related X q p) → place X y p = place X x p) →
          ovrList X rec bound v d make = .ok r → place X r (k :: p) = place X v (k :: p) := by
        intro rec bound make xs0 he hcv hcr hrec hl
        obtain ⟨l, li, xs, ys, h1, h2, h3, h4, h5, _, h7⟩ := ovrList_ok hl
        rw [he] at h3
        cases h3
        subst h4
        refine place_elems hcv (hcr ys) h5 ?_
        intro i x y hi hx hy
        have := h7 i x y hx hy
        cases ha : atIndex li i with
        | none => rw [ha] at this; rw [this]
        | some w =>
          rw [ha] at this
          refine hrec x (List.mem_of_getElem? hx) w y this ?_
          intro q z hn hr
          obtain ⟨s, hs, _, hn'⟩ := list_names h1 h2 (atIndex_mem ha) hn
          exact hp _ _ hn' (.cons (.inr ⟨i, hs, hi⟩) hr)
      have recordCase : ∀ (c : Str) (fields : List (Str × Ty × Option PVal)) (make : List (Str × PVal) → PVal) (fs : List (Str × PVal)),
          attr v k = fs.lookup k → child X v k = fs.lookup k → (∀ kw, child X (make kw) k = kw.lookup k) → fs.map (·.1) = fields.map (·.1) →
          (∀ p ∈ fs.zip fields, Conforms E p.1.2 p.2.2.1) → (fields.map (·.1)).Nodup → (∀ f ∈ fields, '-' ∉ f.1) → (∀ f ∈ fields, Built X Leaf f.2.1) →
          ovrRecord E (fun old o t => ovr E X strict imports n old o (.ty t)) strict v d c fields make = .ok r →
          place X r (k :: p) = place X v (k :: p) := by
        intro c fields make fs ha hcv hcr hfs hconf hn hdash hb hr
        obtain ⟨l, l', kw, h1, h2, h3, rfl⟩ := ovrRecord_ok hr
        refine place_fields h3 hn ha hcv (hcr kw) hfs ?_
        intro f hf old w r' hk hold hg hrec
        subst hk
        refine ih old w f.2.1 r' p (hb f hf) (hconf _ (mem_zip_fields hfs hn hf hold)) hrec ?_
        intro q z hz hrel
        obtain ⟨s, hs, hn'⟩ := record_names h1 h2 hg hz
        exact hp _ _ hn' (.cons (.inl (by rw [hs, und_id (hdash f hf)])) hrel)
      cases hT with
      | leaf hl =>
        cases hl with
        | prim hpr => exact absurd h (prim_ovr_dict hpr)
        | literal l =>
          simp only [ovr] at h
          split at h
          · simp [litEq] at h
          · cases h
        | dict t =>
          simp only [ovr] at h
          obtain ⟨⟨a, rfl⟩, b, rfl⟩ := dictResult h
          rfl
        | rawDict =>
          simp only [ovr] at h
          obtain ⟨⟨a, rfl⟩, b, rfl⟩ := dictResult h
          rfl
        | path => simp [ovr] at h
        | type c => simp [ovr] at h
        | callable => simp [ovr] at h
        | cls c => simp [ovr] at h
        | @tuple ts hts =>
          cases hv with
          | @tuple l _ hlen hc =>
            simp only [ovr] at h
            refine elemsCase _ _ _ l rfl rfl (fun _ => rfl) ?_ h
            intro x hx w y hrec hw
            obtain ⟨i, hi, rfl⟩ := List.mem_iff_getElem.1 hx
            have hz : (l[i], ts[i]'(by omega)) ∈ l.zip ts := by
              rw [List.mem_iff_getElem]
              exact ⟨i, by simp; omega, by simp⟩
            obtain ⟨t', hp', ht', hc'⟩ := prim_typeOf (X := X) (hts _ (List.getElem_mem (by omega))) (hc _ hz)
            rw [ht'] at hrec
            exact ih _ w t' y p (.leaf (.prim hp')) hc' hrec hw
      | @union ts hts =>
        simp only [ovr] at h
        cases hpk : pickType E v ts with
        | error e => rw [hpk] at h; cases h
        | ok ot =>
          rw [hpk] at h
          cases ot with
          | none => cases h
          | some t =>
            dsimp only at h
            obtain ⟨ht, hi⟩ := pickType_some hpk
            rcases pick_conforms hsub (.union hts) hv (hts t ht) hi h with hc | ⟨⟨_, _, rfl⟩, e2⟩
            · exact ih v _ t r (k :: p) (hts t ht) hc h hp
            · simp only [place, e2]; rfl
      | @named c fields hc hn hdash hb =>
        cases hv with
        | named h1 h2 =>
          simp only [ovr] at h
          exact recordCase c fields _ _ rfl rfl (fun _ => rfl) h1 h2 hn hdash hb h
      | @data c fields hc hn hdash hb =>
        cases hv with
        | data h1 h2 =>
          simp only [ovr] at h
          exact recordCase c fields _ _ rfl rfl (fun _ => rfl) h1 h2 hn hdash hb h
      | @list t ht =>
        cases hv with
        | list hc =>
          simp only [ovr] at h
          exact elemsCase _ _ _ _ rfl rfl (fun _ => rfl) (fun x hx w y hrec hw => ih x w t y p ht (hc x hx) hrec hw) h
      | @tupleOf t ht =>
        cases hv with
        | tupleOf hc =>
          simp only [ovr] at h
          exact elemsCase _ _ _ _ rfl rfl (fun _ => rfl) (fun x hx w y hrec hw => ih x w t y p ht (hc x hx) hrec hw) h

end Verif.Config
