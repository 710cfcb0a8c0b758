import Verif.Config.OverrideProps

/-! # Overridden places get the given values -/

namespace Verif.Config

variable {E : Env} {X : Texts}

theorem dash_dots {s : Str} : '-' ∈ s ↔ ∃ a ∈ dots s, '-' ∈ a := by
  induction s with
  | nil => simp [dots]
  | cons c l ih =>
    simp only [dots]
    by_cases hc : c = '.'
    · subst hc
      simp only [if_true, List.mem_cons, exists_eq_or_imp, List.not_mem_nil, false_or]
      rw [← ih]
      constructor
      · rintro (h | h)
        · exact absurd h (by decide)
        · exact h
      · exact .inr
    · simp only [hc, if_false]
      cases hd : dots l with
      | nil => exact absurd hd (dots_ne l)
      | cons x xs =>
        rw [hd] at ih
        simp only [List.mem_cons, exists_eq_or_imp] at ih ⊢
        rw [ih]
        tauto

theorem dots_inj {a b : Str} (h : dots a = dots b) : a = b := by
  induction a generalizing b with
  | nil =>
    cases b with
    | nil => rfl
    | cons c l =>
      simp only [dots] at h
      by_cases hc : c = '.'
      · simp only [hc, if_true, List.cons.injEq] at h; exact absurd h.2.symm (dots_ne l)
      · simp only [hc, if_false] at h
        cases hd : dots l with
        | nil => exact absurd hd (dots_ne l)
        | cons x xs => rw [hd] at h; simp at h
  | cons c l ih =>
    cases b with
    | nil =>
      simp only [dots] at h
      by_cases hc : c = '.'
      · simp only [hc, if_true, List.cons.injEq] at h; exact absurd h.2 (dots_ne l)
      · simp only [hc, if_false] at h
        cases hd : dots l with
        | nil => exact absurd hd (dots_ne l)
        | cons x xs => rw [hd] at h; simp at h
    | cons c' l' =>
      simp only [dots] at h
      cases hd : dots l with
      | nil => exact absurd hd (dots_ne l)
      | cons x xs =>
        cases hd' : dots l' with
        | nil => exact absurd hd' (dots_ne l')
        | cons x' xs' =>
          rw [hd, hd'] at h
          by_cases hc : c = '.' <;> by_cases hc' : c' = '.'
          · simp only [hc, hc', if_true, List.cons.injEq, true_and] at h
            have e : l = l' := ih (by rw [hd, hd', h.1, h.2])
            rw [hc, hc', e]
          · simp [hc, hc'] at h
          · simp [hc, hc'] at h
          · simp only [hc, hc', if_false, List.cons.injEq] at h
            obtain ⟨⟨e1, e2⟩, e3⟩ := h
            have e : l = l' := ih (by rw [hd, hd', e2, e3])
            rw [e1, e]

/-- A value without nested dicts, or a dict of such -/
def FlatV (w : PVal) : Prop :=
  ∀ m, w = .dict m → (∀ e ∈ m, (∀ m', e.2 ≠ .dict m') ∧ ∃ s, e.1 = .str s) ∧ (m.map (·.1)).Nodup

theorem names_flat {w x : PVal} {q : List Str} (h : ∀ m, w ≠ .dict m) (hn : Named w q x) : q = [] ∧ x = w := by
  cases hn with
  | leaf _ => exact ⟨rfl, rfl⟩
  | key => exact absurd rfl (h _)

theorem flatV_put {m : List (Key × PVal)} {k : Str} {v : PVal} (h : FlatV (.dict m)) (hv : ∀ m, v ≠ .dict m) : FlatV (.dict (putKey m (.str k) v)) := by
  intro m' e
  cases e
  refine ⟨?_, keys_putKey (h m rfl).2⟩
  intro e he
  rcases mem_putKey he with rfl | he
  · exact ⟨hv, _, rfl⟩
  · exact (h m rfl).1 e he

theorem split_flat {d res l : List (Key × PVal)} (h : splitKeys d res = .ok l) (hd : ∀ e ∈ d, ∀ m, e.2 ≠ .dict m)
    (hr : (∀ e ∈ res, FlatV e.2 ∧ ∃ s, e.1 = .str s) ∧ (res.map (·.1)).Nodup) :
    (∀ e ∈ l, FlatV e.2 ∧ ∃ s, e.1 = .str s) ∧ (l.map (·.1)).Nodup := by
  induction d generalizing res with
  | nil => simp only [splitKeys, Except.ok.injEq] at h; subst h; exact hr
  | cons e d ih =>
    obtain ⟨k1, v⟩ := e
    have hv := hd _ (List.mem_cons_self ..)
    have hd' : ∀ e ∈ d, ∀ m, e.2 ≠ .dict m := fun e he => hd e (List.mem_cons_of_mem _ he)
    have put : ∀ (s : Str) (w : PVal), FlatV w → (∀ e ∈ putKey res (.str s) w, FlatV e.2 ∧ ∃ s, e.1 = .str s) ∧ ((putKey res (.str s) w).map (·.1)).Nodup := by
      intro s w hw
      refine ⟨?_, keys_putKey hr.2⟩
      intro e he
      rcases mem_putKey he with rfl | he
      · exact ⟨hw, _, rfl⟩
      · exact hr.1 e he
    cases k1 with
    | int n => simp [splitKeys] at h
    | str k1 =>
      simp only [splitKeys] at h
      cases hf : firstDot k1 with
      | none =>
        simp only [hf] at h
        split at h
        · cases h
        · exact ih h hd' (put _ _ fun m e => absurd e (hv m))
      | some p =>
        obtain ⟨outer, inner⟩ := p
        simp only [hf] at h
        cases hl : lookupK res (.str outer) with
        | none =>
          simp only [hl] at h
          refine ih h hd' (put _ _ ?_)
          exact flatV_put (m := []) (k := inner) (by intro m e; cases e; simp) hv
        | some w0 =>
          simp only [hl] at h
          cases w0 with
          | dict m =>
            simp only at h
            exact ih h hd' (put _ _ (flatV_put (hr.1 _ (ovrLookup_mem hl)).1 hv))
          | _ => simp at h

theorem mem_put_other {m : List (Key × PVal)} {k k' : Key} {v w : PVal} (hm : (k', w) ∈ m) (h : k' ≠ k) : (k', w) ∈ putKey m k v := by
  induction m with
  | nil => cases hm
  | cons p m ih =>
    obtain ⟨k'', w'⟩ := p
    simp only [putKey]
    rcases List.mem_cons.1 hm with e | hm
    · cases e
      simp [h]
    · split
      · exact List.mem_cons_of_mem _ hm
      · exact List.mem_cons_of_mem _ (ih hm)

theorem mem_put_self (m : List (Key × PVal)) (k : Key) (v : PVal) : (k, v) ∈ putKey m k v := ovrLookup_mem (ovrLookup_put m k v)

/-- What is found stays. -/
theorem split_keeps {d res l : List (Key × PVal)} (h : splitKeys d res = .ok l) (hd : ∀ e ∈ d, ∀ m, e.2 ≠ .dict m)
    (hr : ∀ e ∈ res, FlatV e.2) {k : Str} {q : List Str} {w x : PVal} (hx : ∀ m, x ≠ .dict m)
    (hk : lookupK res (.str k) = some w) (hn : Named w q x) (hu : ∀ k1 y, (.str k1, y) ∈ d → dots k1 = k :: q → y = x) :
    ∃ w', lookupK l (.str k) = some w' ∧ Named w' q x := by
  induction d generalizing res w with
  | nil => simp only [splitKeys, Except.ok.injEq] at h; subst h; exact ⟨w, hk, hn⟩
  | cons e d ih =>
    obtain ⟨k1, v⟩ := e
    have hv := hd _ (List.mem_cons_self ..)
    have hd' : ∀ e ∈ d, ∀ m, e.2 ≠ .dict m := fun e he => hd e (List.mem_cons_of_mem _ he)
    have hu' : ∀ k1 y, (.str k1, y) ∈ d → dots k1 = k :: q → y = x := fun k1 y he => hu k1 y (List.mem_cons_of_mem _ he)
    have put : ∀ (s : Str) (w : PVal), FlatV w → ∀ e ∈ putKey res (.str s) w, FlatV e.2 := by
      intro s w hw e he
      rcases mem_putKey he with rfl | he
      · exact hw
      · exact hr e he
    cases k1 with
    | int n => simp [splitKeys] at h
    | str k1 =>
      simp only [splitKeys] at h
      cases hf : firstDot k1 with
      | none =>
        simp only [hf] at h
        split at h
        · cases h
        · rename_i hne
          have hkk : Key.str k ≠ .str k1 := by
            intro e; cases e; rw [hk] at hne; simp at hne
          exact ih h hd' (put _ _ fun m e => absurd e (hv m)) (by rw [lookupK_put_ne hkk]; exact hk) hn hu'
      | some p =>
        obtain ⟨outer, inner⟩ := p
        simp only [hf] at h
        cases hl : lookupK res (.str outer) with
        | none =>
          simp only [hl] at h
          have hkk : Key.str k ≠ .str outer := by
            intro e; cases e; rw [hk] at hl; cases hl
          exact ih h hd' (put _ _ (flatV_put (m := []) (k := inner) (by intro m e; cases e; simp) hv)) (by rw [lookupK_put_ne hkk]; exact hk) hn hu'
        | some w0 =>
          simp only [hl] at h
          cases w0 with
          | dict m =>
            simp only at h
            have hfl : FlatV (.dict m) := hr _ (ovrLookup_mem hl)
            by_cases hkk : k = outer
            · subst hkk
              rw [hk] at hl
              cases hl
              refine ih h hd' (put _ _ (flatV_put hfl hv)) (ovrLookup_put _ _ _) ?_ hu'
              generalize ho : PVal.dict m = om at hn
              cases hn with
              | leaf _ => exact absurd ho.symm (hx m)
              | @key m' k2 w2 _ q2 hm2 hn2 =>
                cases ho
                obtain ⟨hw2, s2, e2⟩ := (hfl m rfl).1 _ hm2
                dsimp only at e2
                subst e2
                obtain ⟨rfl, rfl⟩ := names_flat hw2 hn2
                by_cases hs : s2 = inner
                · subst hs
                  have : v = x := hu k1 v (List.mem_cons_self ..) (by rw [dots_some hf]; simp [keyPath])
                  subst this
                  exact .key (mem_put_self _ _ _) hn2
                · exact .key (mem_put_other hm2 (by simpa using hs)) hn2
            · exact ih h hd' (put _ _ (flatV_put hfl hv)) (by rw [lookupK_put_ne (by simpa using hkk)]; exact hk) hn hu'
          | _ => simp at h

/-- Everything is found. -/
theorem split_finds {d res l : List (Key × PVal)} (h : splitKeys d res = .ok l) (hd : ∀ e ∈ d, ∀ m, e.2 ≠ .dict m)
    (hr : ∀ e ∈ res, FlatV e.2) {k0 : Str} {x : PVal} (hm : (.str k0, x) ∈ d) (hu : ∀ y, (.str k0, y) ∈ d → y = x) :
    ∃ k q w, dots k0 = k :: q ∧ lookupK l (.str k) = some w ∧ Named w q x := by
  induction d generalizing res with
  | nil => cases hm
  | cons e d ih =>
    have hx : ∀ m, x ≠ .dict m := hd _ hm
    have hd' : ∀ e ∈ d, ∀ m, e.2 ≠ .dict m := fun e he => hd e (List.mem_cons_of_mem _ he)
    have hu' : ∀ y, (.str k0, y) ∈ d → y = x := fun y he => hu y (List.mem_cons_of_mem _ he)
    have put : ∀ (s : Str) (w : PVal), FlatV w → ∀ e ∈ putKey res (.str s) w, FlatV e.2 := by
      intro s w hw e he
      rcases mem_putKey he with rfl | he
      · exact hw
      · exact hr e he
    obtain ⟨k1, v⟩ := e
    have hv := hd _ (List.mem_cons_self ..)
    cases k1 with
    | int n => simp [splitKeys] at h
    | str k1 =>
      simp only [splitKeys] at h
      have hleaf : Named x [] x := .leaf fun m e => absurd e (hx m)
      have later : ∀ q k, dots k0 = k :: q → ∀ k1 y, (Key.str k1, y) ∈ d → dots k1 = k :: q → y = x := by
        intro q k e k1 y hy e'
        have : k1 = k0 := dots_inj (e'.trans e.symm)
        subst this
        exact hu' y hy
      by_cases hk : k1 = k0
      · subst hk
        have hvx : v = x := hu v (List.mem_cons_self ..)
        subst hvx
        cases hf : firstDot k1 with
        | none =>
          simp only [hf] at h
          split at h
          · cases h
          · obtain ⟨w', a, b⟩ := split_keeps h hd' (put _ _ fun m e => absurd e (hv m)) hx (ovrLookup_put _ _ _) hleaf (later [] k1 (dots_none hf))
            exact ⟨k1, [], w', dots_none hf, a, b⟩
        | some p =>
          obtain ⟨outer, inner⟩ := p
          simp only [hf] at h
          have hds := dots_some hf
          cases hl : lookupK res (.str outer) with
          | none =>
            simp only [hl] at h
            have hn : Named (.dict [(.str inner, v)]) (dots inner) v := by
              have := Named.key (d := [(.str inner, v)]) (List.mem_singleton.2 rfl) hleaf
              simpa [keyPath] using this
            obtain ⟨w', a, b⟩ := split_keeps h hd' (put _ _ (flatV_put (m := []) (k := inner) (by intro m e; cases e; simp) hv)) hx (ovrLookup_put _ _ _) hn
              (later _ _ hds)
            exact ⟨outer, _, w', hds, a, b⟩
          | some w0 =>
            simp only [hl] at h
            cases w0 with
            | dict m =>
              simp only at h
              have hn : Named (.dict (putKey m (.str inner) v)) (dots inner) v := by
                have := Named.key (mem_put_self m (.str inner) v) hleaf
                simpa [keyPath] using this
              obtain ⟨w', a, b⟩ := split_keeps h hd' (put _ _ (flatV_put (hr _ (ovrLookup_mem hl)) hv)) hx (ovrLookup_put _ _ _) hn (later _ _ hds)
              exact ⟨outer, _, w', hds, a, b⟩
            | _ => simp at h
      · have hm' : (Key.str k0, x) ∈ d := by
          rcases List.mem_cons.1 hm with e | hm
          · cases e; exact absurd rfl hk
          · exact hm
        cases hf : firstDot k1 with
        | none =>
          simp only [hf] at h
          split at h
          · cases h
          · exact ih h hd' (put _ _ fun m e => absurd e (hv m)) hm' hu'
        | some p =>
          obtain ⟨outer, inner⟩ := p
          simp only [hf] at h
          cases hl : lookupK res (.str outer) with
          | none =>
            simp only [hl] at h
            exact ih h hd' (put _ _ (flatV_put (m := []) (k := inner) (by intro m e; cases e; simp) hv)) hm' hu'
          | some w0 =>
            simp only [hl] at h
            cases w0 with
            | dict m =>
              simp only at h
              exact ih h hd' (put _ _ (flatV_put (hr _ (ovrLookup_mem hl)) hv)) hm' hu'
            | _ => simp at h

theorem key_unique {d : List (Key × PVal)} (h : (d.map (·.1)).Nodup) {k : Key} {x y : PVal} (hx : (k, x) ∈ d) (hy : (k, y) ∈ d) : x = y := by
  induction d with
  | nil => cases hx
  | cons p d ih =>
    simp only [List.map_cons, List.nodup_cons] at h
    rcases List.mem_cons.1 hx with e | hx' <;> rcases List.mem_cons.1 hy with e' | hy'
    · rw [← e] at e'; exact (Prod.mk.inj e').2.symm
    · exact absurd (List.mem_map.2 ⟨_, hy', by rw [← e]⟩) h.1
    · exact absurd (List.mem_map.2 ⟨_, hx', by rw [← e']⟩) h.1
    · exact ih h.2 hx' hy'

/-- The dict split at the first dots: the parts are as the whole. -/
theorem split_tidy {d l : List (Key × PVal)} (h : splitKeys d [] = .ok l) (ht : Tidy X d) :
    (∀ e ∈ l, ∃ s, e.1 = .str s ∧ '-' ∉ s ∧ ∃ e' ∈ d, s ∈ keyPath e'.1) ∧ (l.map (·.1)).Nodup ∧ ∀ k m, (k, PVal.dict m) ∈ l → Tidy X m := by
  have hd : ∀ e ∈ d, ∀ m, e.2 ≠ .dict m := fun e he => (ht.1 e he).1
  obtain ⟨h1, h2⟩ := split_flat h hd ⟨by simp, by simp⟩
  have back : ∀ k w q x, (k, w) ∈ l → Named w q x → ∃ s, k = .str s ∧ ∃ s0 w0, (Key.str s0, w0) ∈ d ∧ w0 = x ∧ dots s0 = s :: q := by
    intro k w q x hm hn
    rcases split_from h hm hn with ⟨s, k0, w0, q0, a1, a2, a3, a4⟩ | ⟨_, h', _⟩
    · obtain ⟨b1, s0, b2, _⟩ := ht.1 _ a2
      dsimp only at b2
      subst b2
      obtain ⟨rfl, rfl⟩ := names_flat b1 a3
      exact ⟨s, a1, s0, _, a2, rfl, by simpa [keyPath] using a4⟩
    · cases h'
  have dash : ∀ s0 w0, (Key.str s0, w0) ∈ d → ∀ a ∈ dots s0, '-' ∉ a := by
    intro s0 w0 hm a ha hc
    obtain ⟨_, s1, e, hs⟩ := ht.1 _ hm
    cases e
    exact hs (dash_dots.2 ⟨a, ha, hc⟩)
  refine ⟨?_, h2, ?_⟩
  · intro e he
    obtain ⟨q, x, hn⟩ := names_total e.2
    obtain ⟨s, a1, s0, w0, a2, _, a4⟩ := back e.1 e.2 q x he hn
    exact ⟨s, a1, dash _ _ a2 s (by rw [a4]; exact List.mem_cons_self ..), _, a2, by simp [keyPath, a4]⟩
  · intro k m hm
    obtain ⟨hf1, hf2⟩ := (h1 _ hm).1 m rfl
    have inner : ∀ e ∈ m, ∃ s0 w0, (Key.str s0, w0) ∈ d ∧ ∃ s, dots s0 = s :: keyPath e.1 := by
      intro e he
      have hn : Named (.dict m) (keyPath e.1 ++ []) e.2 := .key he (.leaf fun m' e' => absurd e' ((hf1 e he).1 m'))
      obtain ⟨s, _, s0, w0, a2, _, a4⟩ := back k _ _ _ hm hn
      exact ⟨s0, w0, a2, s, by simpa using a4⟩
    refine ⟨?_, hf2, ?_⟩
    · intro e he
      obtain ⟨b1, s, b2⟩ := hf1 e he
      refine ⟨b1, s, b2, ?_⟩
      intro hc
      obtain ⟨a, ha, hc'⟩ := dash_dots.1 hc
      obtain ⟨s0, w0, a2, s', a4⟩ := inner e he
      exact dash _ _ a2 a (by rw [a4, b2]; exact List.mem_cons_of_mem _ ha) hc'
    · intro e1 he1 e2 he2 a ha b hb i hia hib
      obtain ⟨s1, w1, c1, s1', c2⟩ := inner e1 he1
      obtain ⟨s2, w2, c3, s2', c4⟩ := inner e2 he2
      exact ht.2.2 _ c1 _ c3 a (show a ∈ dots s1 by rw [c2]; exact List.mem_cons_of_mem _ ha)
        b (show b ∈ dots s2 by rw [c4]; exact List.mem_cons_of_mem _ hb) i hia hib

theorem atIndex_some {li : List (Int × PVal)} {i : Int} {w : PVal} (h : (i, w) ∈ li) (hu : ∀ w', (i, w') ∈ li → w' = w) : atIndex li i = some w := by
  cases ha : atIndex li i with
  | none =>
    exfalso
    unfold atIndex at ha
    rw [Option.map_eq_none_iff, List.find?_eq_none] at ha
    exact ha (i, w) (List.mem_reverse.2 h) (by simp)
  | some w' => rw [hu w' (atIndex_mem ha)]

theorem named_value (hsub : ∀ a b, E.isSub a b = true → a = b) {strict imports : Bool} (n : Nat) (v : PVal) (d : List (Key × PVal)) (T : Ty) (r : PVal)
    (k0 : Str) (x old : PVal) (hT : Built X Leaf T) (hv : Conforms E v T) (hd : Tidy X d)
    (h : ovr E X strict imports n v (.dict d) (.ty T) = .ok r) (hk : (.str k0, x) ∈ d) (hold : place X v (dots k0) = some old) :
    ∃ m t y, m < n ∧ TyAt E X v T (dots k0) t ∧ ovr E X strict imports m old x (.ty t) = .ok y ∧ place X r (dots k0) = some y := by
  induction n generalizing v d T r k0 with
  | zero => simp [ovr] at h
  | succ n ih =>
    -- a part of the overrides
    have part : ∀ (w : PVal) (q : List Str) (v' r' : PVal) (T' : Ty), Named w q x → FlatV w → (∀ m, w = .dict m → Tidy X m) → Built X Leaf T' →
        Conforms E v' T' → ovr E X strict imports n v' w (.ty T') = .ok r' → place X v' q = some old →
        ∃ m t y, m < n + 1 ∧ TyAt E X v' T' q t ∧ ovr E X strict imports m old x (.ty t) = .ok y ∧ place X r' q = some y := by
      intro w q v' r' T' hn hf htd hT' hv' ho hp
      by_cases hw : ∃ m, w = .dict m
      · obtain ⟨m, rfl⟩ := hw
        generalize hom : PVal.dict m = om at hn
        cases hn with
        | leaf hl => exact absurd hom.symm ((hd.1 _ hk).1 m)
        | @key m' k2 w2 _ q2 hm2 hn2 =>
          cases hom
          obtain ⟨b1, s, b2⟩ := (hf m rfl).1 _ hm2
          dsimp only at b2
          subst b2
          obtain ⟨rfl, rfl⟩ := names_flat b1 hn2
          simp only [keyPath, List.append_nil] at hp ⊢
          obtain ⟨m1, t, y, c0, c1, c2, c3⟩ := ih v' m T' r' s hT' hv' (htd m rfl) ho hm2 hp
          exact ⟨m1, t, y, by omega, c1, c2, c3⟩
      · obtain ⟨rfl, rfl⟩ := names_flat (fun m e => hw ⟨m, e⟩) hn
        simp only [place, Option.some.injEq] at hp
        subst hp
        exact ⟨n, T', r', by omega, .here, ho, rfl⟩
    have hdd : ∀ e ∈ d, ∀ m, e.2 ≠ .dict m := fun e he => (hd.1 e he).1
    have found : ∀ l, splitKeys d [] = .ok l → ∃ k q w, dots k0 = k :: q ∧ (.str k, w) ∈ l ∧ lookupK l (.str k) = some w ∧ Named w q x ∧ FlatV w ∧
        ∀ m, w = .dict m → Tidy X m := by
      intro l hl
      obtain ⟨k, q, w, a1, a2, a3⟩ := split_finds hl hdd (by simp) hk (fun y hy => key_unique hd.2.1 hy hk)
      have hm := ovrLookup_mem a2
      exact ⟨k, q, w, a1, hm, a2, a3, ((split_flat hl hdd ⟨by simp, by simp⟩).1 _ hm).1, fun m e => (split_tidy hl hd).2.2 _ m (e ▸ hm)⟩
    have recordCase : ∀ (c : Str) (fields : List (Str × Ty × Option PVal)) (make : List (Str × PVal) → PVal) (fs : List (Str × PVal)),
        (∀ k, attr v k = fs.lookup k) → (∀ k, child X v k = fs.lookup k) → (∀ kw k, child X (make kw) k = kw.lookup k) → fs.map (·.1) = fields.map (·.1) →
        (∀ p ∈ fs.zip fields, Conforms E p.1.2 p.2.2.1) → (fields.map (·.1)).Nodup → (∀ f ∈ fields, Built X Leaf f.2.1) →
        ovrRecord E (fun old o t => ovr E X strict imports n old o (.ty t)) strict v d c fields make = .ok r →
        ∃ k q f old' m t y, dots k0 = k :: q ∧ f ∈ fields ∧ f.1 = k ∧ child X v k = some old' ∧ m < n + 1 ∧ TyAt E X old' f.2.1 q t ∧
          ovr E X strict imports m old x (.ty t) = .ok y ∧ place X r (dots k0) = some y := by
      intro c fields make fs ha hcv hcr hfs hconf hn hb hr
      obtain ⟨l, l', kw, h1, h2, h3, rfl⟩ := ovrRecord_ok hr
      obtain ⟨k, q, w, a1, a2, a3, a4, a5, a6⟩ := found l h1
      obtain ⟨t1, t2, _⟩ := split_tidy h1 hd
      rw [undash_id (fun p hp => by obtain ⟨s, s1, s2, _⟩ := t1 p hp; exact ⟨s, s1, s2⟩) t2] at h2
      cases h2
      rw [a1] at hold ⊢
      simp only [place, hcv] at hold
      cases hlk : fs.lookup k with
      | none => rw [hlk] at hold; cases hold
      | some old' =>
        rw [hlk] at hold
        have hkf : k ∈ fields.map (·.1) := by
          by_contra hc
          rw [lookup_none (fs := fs) (hfs ▸ hc)] at hlk
          cases hlk
        obtain ⟨f, hf, rfl⟩ := List.mem_map.1 hkf
        obtain ⟨_, hall⟩ := ovrFields_at h3 hn
        obtain ⟨old'', r', b1, b2, b3⟩ := hall f hf
        rw [ha, hlk] at b1
        cases b1
        rw [show getKey l f.1 = some w from a3] at b3
        dsimp only at b3 hold
        obtain ⟨m, t, y, c0, c1, c2, c3⟩ := part w q old' r' f.2.1 a4 a5 a6 (hb f hf) (hconf _ (mem_zip_fields hfs hn hf hlk)) b3 hold
        refine ⟨f.1, q, f, old', m, t, y, rfl, hf, rfl, by rw [hcv]; exact hlk, c0, c1, c2, ?_⟩
        simp only [place, hcr, b2]
        exact c3
    have elemsCase : ∀ (rec : PVal → PVal → Res PVal) (bound : Option Nat) (make : List PVal → PVal) (xs0 : List PVal),
        elems v = some xs0 → (∀ k, child X v k = nthAt X xs0 k) → (∀ ys k, child X (make ys) k = nthAt X ys k) →
        ovrList X rec bound v d make = .ok r →
        ∃ k q w x' y', dots k0 = k :: q ∧ Named w q x ∧ FlatV w ∧ (∀ m, w = .dict m → Tidy X m) ∧ x' ∈ xs0 ∧ child X v k = some x' ∧
          rec x' w = .ok y' ∧ place X x' q = some old ∧ place X r (dots k0) = place X y' q := by
      intro rec bound make xs0 he hcv hcr hl
      obtain ⟨l, li, xs, ys, h1, h2, h3, h4, h5, _, h7⟩ := ovrList_ok hl
      rw [he] at h3
      cases h3
      subst h4
      obtain ⟨k, q, w, a1, a2, a3, a4, a5, a6⟩ := found l h1
      obtain ⟨t1, t2, _⟩ := split_tidy h1 hd
      rw [a1] at hold ⊢
      obtain ⟨⟨j, w'⟩, b1, b2⟩ := (mapE_ok_mem h2).1 _ a2
      unfold indexKey at b2
      dsimp only at b2
      cases hi : X.int k with
      | none => rw [hi] at b2; cases b2
      | some i =>
        rw [hi] at b2
        have ej : (i, w) = (j, w') := Except.ok.inj b2
        rw [← ej] at b1
        simp only [place, hcv, nthAt, hi] at hold
        by_cases hp : 0 ≤ i
        · simp only [hp, if_true] at hold
          by_cases hb : i.toNat < xs0.length
          · have e1 : xs0[i.toNat]? = some xs0[i.toNat] := List.getElem?_eq_getElem hb
            have e2 : ys[i.toNat]? = some (ys[i.toNat]'(by omega)) := List.getElem?_eq_getElem (by omega)
            rw [e1] at hold
            have h8 := h7 _ _ _ e1 e2
            rw [Int.toNat_of_nonneg hp, atIndex_some b1 (by
              intro w'' hw''
              obtain ⟨q'', x'', hn''⟩ := names_total w''
              obtain ⟨s, hs, hs', _⟩ := list_names h1 h2 hw'' hn''
              obtain ⟨s1, e, _, f1, hf1, hf1'⟩ := t1 _ hs'
              obtain ⟨s2, e', _, f2, hf2, hf2'⟩ := t1 _ a2
              cases e
              cases e'
              have := hd.2.2 f1 hf1 f2 hf2 s hf1' k hf2' i hs hi
              subst this
              exact key_unique t2 hs' a2)] at h8
            refine ⟨k, q, w, xs0[i.toNat], ys[i.toNat]'(by omega), rfl, a4, a5, a6, List.getElem_mem hb, by rw [hcv, nthAt, hi]; simp [hp, e1], h8, hold, ?_⟩
            simp [place, hcr, nthAt, hi, hp, e2]
          · rw [List.getElem?_eq_none (by omega)] at hold; cases hold
        · simp only [hp, if_false] at hold; cases hold
    cases hT with
    | leaf hl =>
      cases hl with
      | prim hpr => exact absurd h (prim_ovr_dict hpr)
      | literal l =>
        simp only [ovr] at h
        split at h
        · simp [litEq] at h
        · cases h
      | dict t =>
        cases hv with
        | dict =>
          cases hq : dots k0 with
          | nil => exact absurd hq (dots_ne k0)
          | cons a b => rw [hq] at hold; simp [place, child] at hold
      | rawDict =>
        cases hv with
        | rawDict =>
          cases hq : dots k0 with
          | nil => exact absurd hq (dots_ne k0)
          | cons a b => rw [hq] at hold; simp [place, child] at hold
      | path => simp [ovr] at h
      | type c => simp [ovr] at h
      | callable => simp [ovr] at h
      | cls c => simp [ovr] at h
      | @tuple ts hts =>
        cases hv with
        | @tuple l _ hlen hc =>
          simp only [ovr] at h
          obtain ⟨k, q, w, x', y', a1, a2, a3, a4, a5, a6, a7, a8, a9⟩ := elemsCase _ _ _ l rfl (fun _ => rfl) (fun _ _ => rfl) h
          obtain ⟨i, hi, rfl⟩ := List.mem_iff_getElem.1 a5
          have hz : (l[i], ts[i]'(by omega)) ∈ l.zip ts := by
            rw [List.mem_iff_getElem]
            exact ⟨i, by simp; omega, by simp⟩
          obtain ⟨t', hp', ht', hc'⟩ := prim_typeOf (X := X) (hts _ (List.getElem_mem (by omega))) (hc _ hz)
          rw [ht'] at a7
          obtain ⟨m, t, y, c0, c1, c2, c3⟩ := part w q _ y' t' a2 a3 a4 (.leaf (.prim hp')) hc' a7 a8
          exact ⟨m, t, y, c0, by rw [a1]; exact .tuple a6 ht' c1, c2, by rw [a9]; exact c3⟩
    | @union ts hts =>
      simp only [ovr] at h
      cases hpk : pickType E v ts with
      | error e => rw [hpk] at h; cases h
      | ok ot =>
        rw [hpk] at h
        cases ot with
        | none => cases h
        | some t =>
          dsimp only at h
          obtain ⟨ht, hi⟩ := pickType_some hpk
          cases hq : dots k0 with
          | nil => exact absurd hq (dots_ne k0)
          | cons a b =>
            rcases pick_conforms hsub (.union hts) hv (hts t ht) hi h with hc | ⟨⟨_, _, rfl⟩, _⟩
            · obtain ⟨m, t', y, c0, c1, c2, c3⟩ := ih v d t r k0 (hts t ht) hc hd h hk hold
              rw [hq] at c1 c3
              exact ⟨m, t', y, by omega, .union ht hc c1, c2, c3⟩
            · rw [hq] at hold
              simp [place, child] at hold
    | @named c fields hc hn hdash hb =>
      cases hv with
      | named h1 h2 =>
        simp only [ovr] at h
        obtain ⟨k, q, f, old', m, t, y, a1, a2, a3, a4, a5, a6, a7, a8⟩ := recordCase c fields _ _ (fun _ => rfl) (fun _ => rfl) (fun _ _ => rfl) h1 h2 hn hb h
        subst a3
        exact ⟨m, t, y, a5, by rw [a1]; exact .named (dflt := f.2.2) a2 a4 a6, a7, a8⟩
    | @data c fields hc hn hdash hb =>
      cases hv with
      | data h1 h2 =>
        simp only [ovr] at h
        obtain ⟨k, q, f, old', m, t, y, a1, a2, a3, a4, a5, a6, a7, a8⟩ := recordCase c fields _ _ (fun _ => rfl) (fun _ => rfl) (fun _ _ => rfl) h1 h2 hn hb h
        subst a3
        exact ⟨m, t, y, a5, by rw [a1]; exact .data (dflt := f.2.2) a2 a4 a6, a7, a8⟩
    | @list t ht =>
      cases hv with
      | list hc =>
        simp only [ovr] at h
        obtain ⟨k, q, w, x', y', a1, a2, a3, a4, a5, a6, a7, a8, a9⟩ := elemsCase _ _ _ _ rfl (fun _ => rfl) (fun _ _ => rfl) h
        obtain ⟨m, t', y, c0, c1, c2, c3⟩ := part w q _ y' t a2 a3 a4 ht (hc _ a5) a7 a8
        exact ⟨m, t', y, c0, by rw [a1]; exact .list a6 c1, c2, by rw [a9]; exact c3⟩
    | @tupleOf t ht =>
      cases hv with
      | tupleOf hc =>
        simp only [ovr] at h
        obtain ⟨k, q, w, x', y', a1, a2, a3, a4, a5, a6, a7, a8, a9⟩ := elemsCase _ _ _ _ rfl (fun _ => rfl) (fun _ _ => rfl) h
        obtain ⟨m, t', y, c0, c1, c2, c3⟩ := part w q _ y' t a2 a3 a4 ht (hc _ a5) a7 a8
        exact ⟨m, t', y, c0, by rw [a1]; exact .tupleOf a6 c1, c2, by rw [a9]; exact c3⟩

end Verif.Config
