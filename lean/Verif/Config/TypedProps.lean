import Verif.Config.TypedSpec
import Mathlib.Algebra.Order.Field.Rat
import Mathlib.Tactic.NormNum
import Mathlib.Data.Rat.Cast.Order

/-! # Typed configurations: properties -/

namespace Verif.Config

variable {E : Env}

/-! ## Lemmas about the parts -/

theorem mem_zip_swap {α β : Type} {l : List α} {m : List β} {p : α × β} (h : p ∈ l.zip m) : (p.2, p.1) ∈ m.zip l := by
  induction l generalizing m with
  | nil => simp at h
  | cons a l ih =>
    cases m with
    | nil => simp at h
    | cons b m =>
      simp only [List.zip_cons_cons, List.mem_cons] at h ⊢
      rcases h with rfl | h
      · exact .inl rfl
      · exact .inr (ih h)

theorem mapE_ok {α β : Type} {f : α → Res β} {l : List α} {m : List β} (h : mapE f l = .ok m) :
    m.length = l.length ∧ ∀ p ∈ l.zip m, f p.1 = .ok p.2 := by
  induction l generalizing m with
  | nil => simp only [mapE, Except.ok.injEq] at h; subst h; simp
  | cons a l ih =>
    simp only [mapE] at h
    cases ha : f a with
    | error e => simp [ha] at h
    | ok b =>
      cases hl : mapE f l with
      | error e => simp [ha, hl] at h
      | ok m' =>
        simp only [ha, hl, Except.ok.injEq] at h
        subst h
        obtain ⟨h1, h2⟩ := ih hl
        refine ⟨by simp [h1], ?_⟩
        intro p hp
        simp only [List.zip_cons_cons, List.mem_cons] at hp
        rcases hp with rfl | hp
        · exact ha
        · exact h2 p hp

theorem mapE_ok_mem {α β : Type} {f : α → Res β} {l : List α} {m : List β} (h : mapE f l = .ok m) :
    (∀ a ∈ l, ∃ b ∈ m, f a = .ok b) ∧ ∀ b ∈ m, ∃ a ∈ l, f a = .ok b := by
  induction l generalizing m with
  | nil => simp only [mapE, Except.ok.injEq] at h; subst h; simp
  | cons a l ih =>
    simp only [mapE] at h
    cases ha : f a with
    | error e => simp [ha] at h
    | ok b =>
      cases hl : mapE f l with
      | error e => simp [ha, hl] at h
      | ok m' =>
        simp only [ha, hl, Except.ok.injEq] at h
        subst h
        obtain ⟨h1, h2⟩ := ih hl
        constructor
        · intro x hx
          rcases List.mem_cons.1 hx with rfl | hx
          · exact ⟨b, by simp, ha⟩
          · obtain ⟨y, hy, he⟩ := h1 x hx
            exact ⟨y, by simp [hy], he⟩
        · intro y hy
          rcases List.mem_cons.1 hy with rfl | hy
          · exact ⟨a, by simp, ha⟩
          · obtain ⟨x, hx, he⟩ := h2 y hy
            exact ⟨x, by simp [hx], he⟩

theorem mapE_error {α β : Type} {f : α → Res β} {l : List α} {e : TErr} (h : mapE f l = .error e) : ∃ a ∈ l, f a = .error e := by
  induction l with
  | nil => simp [mapE] at h
  | cons a l ih =>
    simp only [mapE] at h
    cases ha : f a with
    | error e' => simp only [ha, Except.error.injEq] at h; subst h; exact ⟨a, by simp, ha⟩
    | ok b =>
      cases hl : mapE f l with
      | error e' =>
        simp only [ha, hl, Except.error.injEq] at h
        subst h
        obtain ⟨x, hx, he⟩ := ih hl
        exact ⟨x, by simp [hx], he⟩
      | ok m' => simp [ha, hl] at h

theorem mapE_eq {α β : Type} {f : α → Res β} {l : List α} {m : List β} (hl : m.length = l.length)
    (h : ∀ p ∈ l.zip m, f p.1 = .ok p.2) : mapE f l = .ok m := by
  induction l generalizing m with
  | nil =>
    have : m = [] := by simpa using hl
    subst this; rfl
  | cons a l ih =>
    cases m with
    | nil => simp at hl
    | cons b m =>
      have h1 : f a = .ok b := h (a, b) (by simp)
      have h2 := ih (m := m) (by simpa using hl) fun p hp => h p (by simp [hp])
      simp [mapE, h1, h2]

theorem map_eq_ok {α β : Type} {g : α → β} {r : Res α} {b : β} (h : r.map g = .ok b) : ∃ a, r = .ok a ∧ g a = b := by
  cases r with
  | error e => simp [Except.map] at h
  | ok a => simp only [Except.map, Except.ok.injEq] at h; exact ⟨a, rfl, h⟩

theorem map_eq_error {α β : Type} {g : α → β} {r : Res α} {e : TErr} (h : r.map g = .error e) : r = .error e := by
  cases r with
  | error e' => simpa [Except.map] using h
  | ok a => simp [Except.map] at h

theorem firstOf_ok {f : Ty → Res PVal} {ts : List Ty} {v : PVal} (h : firstOf f ts = .ok v) :
    ∃ pre t post, ts = pre ++ t :: post ∧ f t = .ok v ∧ ∀ u ∈ pre, f u = .error .json := by
  induction ts with
  | nil => simp [firstOf] at h
  | cons t ts ih =>
    simp only [firstOf] at h
    cases ht : f t with
    | ok w =>
      simp only [ht, Except.ok.injEq] at h
      subst h
      exact ⟨[], t, ts, rfl, ht, by simp⟩
    | error e =>
      cases e with
      | json =>
        simp only [ht] at h
        obtain ⟨pre, u, post, rfl, h1, h2⟩ := ih h
        refine ⟨t :: pre, u, post, rfl, h1, ?_⟩
        intro u hu
        rcases List.mem_cons.1 hu with rfl | hu
        · exact ht
        · exact h2 u hu
      | other => simp [ht] at h
      | fuel => simp [ht] at h

theorem firstOf_json {f : Ty → Res PVal} {ts : List Ty} (h : firstOf f ts = .error .json) : ∀ t ∈ ts, f t = .error .json := by
  induction ts with
  | nil => simp
  | cons t ts ih =>
    simp only [firstOf] at h
    cases ht : f t with
    | ok w => simp [ht] at h
    | error e =>
      cases e with
      | json =>
        simp only [ht] at h
        intro u hu
        rcases List.mem_cons.1 hu with rfl | hu
        · exact ht
        · exact ih h u hu
      | other => simp [ht] at h
      | fuel => simp [ht] at h

theorem firstOf_error {f : Ty → Res PVal} {ts : List Ty} {e : TErr} (h : firstOf f ts = .error e) (he : e ≠ .json) :
    ∃ t ∈ ts, f t = .error e := by
  induction ts with
  | nil => simp only [firstOf, Except.error.injEq] at h; exact absurd h.symm he
  | cons t ts ih =>
    simp only [firstOf] at h
    cases ht : f t with
    | ok w => simp [ht] at h
    | error e' =>
      cases e' with
      | json =>
        simp only [ht] at h
        obtain ⟨u, hu, h1⟩ := ih h
        exact ⟨u, by simp [hu], h1⟩
      | other => simp only [ht, Except.error.injEq] at h; subst h; exact ⟨t, by simp, ht⟩
      | fuel => simp only [ht, Except.error.injEq] at h; subst h; exact ⟨t, by simp, ht⟩

theorem guardJson_ok {b : Bool} {v r : PVal} : guardJson b v = .ok r ↔ b = true ∧ v = r := by
  cases b <;> simp [guardJson]

theorem guardJson_error {b : Bool} {v : PVal} {e : TErr} : guardJson b v = .error e ↔ b = false ∧ e = .json := by
  cases b <;> simp [guardJson, eq_comm]

theorem onlyFields_iff {d : List (Key × PVal)} {fields : List (Str × Ty × Option PVal)} :
    onlyFields d fields = true ↔ ∀ p ∈ d, ∃ f ∈ fields, p.1 = .str f.1 := by
  simp [onlyFields]

theorem convFields_ok {rec : PVal → Ty → Res PVal} {d : List (Key × PVal)} {fields : List (Str × Ty × Option PVal)}
    {kw : List (Str × PVal)} (h : convFields rec d fields = .ok kw) :
    kw.map (·.1) = fields.map (·.1) ∧
    (∀ f ∈ fields, ∃ v r, (getKey d f.1).or f.2.2 = some v ∧ rec v f.2.1 = .ok r) ∧
    ∀ p ∈ kw.zip fields, ∃ v, (getKey d p.2.1).or p.2.2.2 = some v ∧ rec v p.2.2.1 = .ok p.1.2 := by
  have key : ∀ (f : Str × Ty × Option PVal) (p : Str × PVal),
      (match (getKey d f.1).or f.2.2 with
        | .none => Except.error TErr.json
        | some v => match rec v f.2.1 with
          | .ok r => .ok (f.1, r)
          | .error e => .error e) = Except.ok p →
      p.1 = f.1 ∧ ∃ v, (getKey d f.1).or f.2.2 = some v ∧ rec v f.2.1 = .ok p.2 := by
    intro f p hp
    cases hv : (getKey d f.1).or f.2.2 with
    | none => simp [hv] at hp
    | some v =>
      cases hr : rec v f.2.1 with
      | error e => simp [hv, hr] at hp
      | ok r =>
        simp only [hv, hr, Except.ok.injEq] at hp
        subst hp
        exact ⟨rfl, v, rfl, hr⟩
  obtain ⟨h1, h2⟩ := mapE_ok h
  refine ⟨?_, ?_, ?_⟩
  · clear h
    induction fields generalizing kw with
    | nil => simpa using h1
    | cons f fields ih =>
      cases kw with
      | nil => simp at h1
      | cons p kw =>
        simp only [List.map_cons, List.cons.injEq]
        refine ⟨(key f p (h2 (f, p) (by simp))).1, ih (by simpa using h1) fun q hq => h2 q (by simp [hq])⟩
  · intro f hf
    obtain ⟨p, hp, he⟩ := (mapE_ok_mem h).1 f hf
    obtain ⟨_, v, hv, hr⟩ := key f p he
    exact ⟨v, p.2, hv, hr⟩
  · intro p hp
    have hp' : (p.2, p.1) ∈ fields.zip kw := mem_zip_swap hp
    exact (key p.2 p.1 (h2 _ hp')).2

theorem convFields_error {rec : PVal → Ty → Res PVal} {d : List (Key × PVal)} {fields : List (Str × Ty × Option PVal)}
    {e : TErr} (h : convFields rec d fields = .error e) :
    ∃ f ∈ fields, ((getKey d f.1).or f.2.2 = .none ∧ e = .json) ∨ ∃ v, (getKey d f.1).or f.2.2 = some v ∧ rec v f.2.1 = .error e := by
  obtain ⟨f, hf, he⟩ := mapE_error h
  refine ⟨f, hf, ?_⟩
  cases hv : (getKey d f.1).or f.2.2 with
  | none =>
    simp only [hv, Except.error.injEq] at he
    exact .inl ⟨rfl, he.symm⟩
  | some v =>
    cases hr : rec v f.2.1 with
    | error e' =>
      simp only [hv, hr, Except.error.injEq] at he
      subst he
      exact .inr ⟨v, rfl, hr⟩
    | ok r => simp [hv, hr] at he

/-! ## C72: what is accepted -/

theorem conv_fits (n : Nat) (raw : PVal) (T : Ty) (v : PVal) (h : conv E true false n raw T = .ok v) : Fits raw T := by
  induction n generalizing raw T v with
  | zero => simp [conv] at h
  | succ n ih =>
    cases T with
    | str =>
      simp only [conv, guardJson_ok] at h
      cases raw <;> simp [isStr] at h
      exact .str _
    | int =>
      simp only [conv, guardJson_ok] at h
      cases raw <;> simp [isInt] at h
      · exact .intBool _
      · exact .int _
    | float =>
      simp only [conv, guardJson_ok] at h
      cases raw <;> simp [isFloat, isInt] at h
      · exact .floatBool _
      · exact .floatInt _
      · exact .float _ _
    | bool =>
      simp only [conv, guardJson_ok] at h
      cases raw <;> simp [isBool] at h
      exact .bool _
    | none =>
      simp only [conv, guardJson_ok] at h
      cases raw <;> simp [isNone] at h
      exact .none
    | any => exact .any _
    | literal l =>
      simp only [conv, guardJson_ok, List.any_eq_true] at h
      obtain ⟨⟨x, hx, he⟩, _⟩ := h
      exact .literal hx he
    | union ts =>
      simp only [conv] at h
      obtain ⟨pre, t, post, rfl, h1, _⟩ := firstOf_ok h
      exact .union (by simp) (ih _ _ _ h1)
    | named c fields =>
      cases raw <;> simp only [conv, reduceCtorEq] at h
      rename_i d
      cases hu : undash d with
      | none => simp [hu] at h
      | some d' =>
        simp only [hu] at h
        cases hc : convFields (conv E true false n) d' fields with
        | error e => simp [hc] at h
        | ok kw =>
          simp only [hc, Bool.true_and] at h
          cases ho : onlyFields d' fields with
          | false => simp [ho] at h
          | true =>
            obtain ⟨_, h2, _⟩ := convFields_ok hc
            refine .named hu (onlyFields_iff.1 ho) ?_ ?_
            · intro f hf
              obtain ⟨v, r, h3, _⟩ := h2 f hf
              rw [h3]; rfl
            · intro f hf v hv
              obtain ⟨v', r, h3, h4⟩ := h2 f hf
              rw [hv] at h3
              cases h3
              exact ih _ _ _ h4
    | data c fields =>
      cases raw <;> simp only [conv, reduceCtorEq] at h
      rename_i d
      cases hc : convFields (conv E true false n) d fields with
      | error e => simp [hc] at h
      | ok kw =>
        simp only [hc, Bool.true_and] at h
        cases ho : onlyFields d fields with
        | false => simp [ho] at h
        | true =>
          obtain ⟨_, h2, _⟩ := convFields_ok hc
          refine .data (onlyFields_iff.1 ho) ?_ ?_
          · intro f hf
            obtain ⟨v, r, h3, _⟩ := h2 f hf
            rw [h3]; rfl
          · intro f hf v hv
            obtain ⟨v', r, h3, h4⟩ := h2 f hf
            rw [hv] at h3
            cases h3
            exact ih _ _ _ h4
    | list t =>
      cases raw <;> simp only [conv, reduceCtorEq] at h
      obtain ⟨m, h1, _⟩ := map_eq_ok h
      refine .list fun v hv => ?_
      obtain ⟨r, _, he⟩ := (mapE_ok_mem h1).1 v hv
      exact ih _ _ _ he
    | tupleOf t =>
      cases raw <;> simp only [conv, reduceCtorEq] at h
      obtain ⟨m, h1, _⟩ := map_eq_ok h
      refine .tupleOf fun v hv => ?_
      obtain ⟨r, _, he⟩ := (mapE_ok_mem h1).1 v hv
      exact ih _ _ _ he
    | tuple ts =>
      cases raw <;> simp only [conv, reduceCtorEq] at h
      rename_i l
      by_cases hlen : l.length = ts.length
      · simp only [hlen, ne_eq, not_true_eq_false, if_false] at h
        obtain ⟨m, h1, _⟩ := map_eq_ok h
        refine .tuple hlen fun p hp => ?_
        obtain ⟨r, _, he⟩ := (mapE_ok_mem h1).1 p hp
        exact ih _ _ _ he
      · simp [hlen] at h
    | dict t =>
      cases raw <;> simp only [conv, reduceCtorEq] at h
      obtain ⟨m, h1, _⟩ := map_eq_ok h
      refine .dict fun p hp => ?_
      obtain ⟨r, _, he⟩ := (mapE_ok_mem h1).1 p hp
      cases hc : conv E true false n p.2 t with
      | error e => simp [hc] at he
      | ok w => exact ih _ _ _ hc
    | rawList =>
      cases raw <;> simp only [conv, reduceCtorEq] at h
      exact .rawList _
    | rawDict =>
      cases raw <;> simp only [conv, reduceCtorEq] at h
      exact .rawDict _
    | path =>
      cases raw <;> simp only [conv, reduceCtorEq] at h
      · exact .path _
      · exact .pathPath _
    | type c => exact .type _ _
    | callable => exact .callable _
    | cls c => exact .cls _ _

theorem conv_rejects (hE : ∀ c kw, E.accepts c kw = true) (n : Nat) (raw : PVal) (T : Ty)
    (h : conv E true false n raw T = .error .json) : ¬ Fits raw T := by
  induction n generalizing raw T with
  | zero => simp [conv] at h
  | succ n ih =>
    intro hf
    cases hf with
    | str s => simp [conv, guardJson, isStr] at h
    | int s => simp [conv, guardJson, isInt] at h
    | intBool s => simp [conv, guardJson, isInt] at h
    | float s => simp [conv, guardJson, isFloat] at h
    | floatInt s => simp [conv, guardJson, isFloat, isInt] at h
    | floatBool s => simp [conv, guardJson, isFloat, isInt] at h
    | bool b => simp [conv, guardJson, isBool] at h
    | none => simp [conv, guardJson, isNone] at h
    | any => cases raw <;> simp [conv] at h
    | literal hx he =>
      simp only [conv, guardJson_error, and_true, List.any_eq_false] at h
      exact h _ hx he
    | union ht hf =>
      simp only [conv] at h
      exact ih _ _ (firstOf_json h _ ht) hf
    | @named c d d' fields hu ho hs hv =>
      simp only [conv, hu] at h
      cases hc : convFields (conv E true false n) d' fields with
      | error e =>
        simp only [hc, Except.error.injEq] at h
        subst h
        obtain ⟨f, hf, h1 | ⟨v, h1, h2⟩⟩ := convFields_error hc
        · have := hs f hf
          rw [h1.1] at this
          exact absurd this (by simp)
        · exact ih _ _ h2 (hv f hf v h1)
      | ok kw =>
        simp only [hc, Bool.true_and, onlyFields_iff.2 ho, hE, guardJson] at h
        simp at h
    | @data c d fields ho hs hv =>
      simp only [conv] at h
      cases hc : convFields (conv E true false n) d fields with
      | error e =>
        simp only [hc, Except.error.injEq] at h
        subst h
        obtain ⟨f, hf, h1 | ⟨v, h1, h2⟩⟩ := convFields_error hc
        · have := hs f hf
          rw [h1.1] at this
          exact absurd this (by simp)
        · exact ih _ _ h2 (hv f hf v h1)
      | ok kw =>
        simp only [hc, Bool.true_and, onlyFields_iff.2 ho, hE, guardJson] at h
        simp at h
    | list hl =>
      simp only [conv] at h
      obtain ⟨v, hv, he⟩ := mapE_error (map_eq_error h)
      exact ih _ _ he (hl v hv)
    | tupleOf hl =>
      simp only [conv] at h
      obtain ⟨v, hv, he⟩ := mapE_error (map_eq_error h)
      exact ih _ _ he (hl v hv)
    | tuple hlen hl =>
      simp only [conv, hlen, ne_eq, not_true_eq_false, if_false] at h
      obtain ⟨v, hv, he⟩ := mapE_error (map_eq_error h)
      exact ih _ _ he (hl v hv)
    | @dict d t hl =>
      simp only [conv] at h
      obtain ⟨p, hp, he⟩ := mapE_error (map_eq_error h)
      cases hc : conv E true false n p.2 t with
      | error e =>
        simp only [hc, Except.error.injEq] at he
        subst he
        exact ih _ _ hc (hl p hp)
      | ok w => simp [hc] at he
    | rawList l => simp [conv] at h
    | rawDict d => simp [conv] at h
    | path s =>
      simp only [conv] at h
      cases hp : E.path s <;> simp [hp] at h
    | pathPath p => simp [conv] at h
    | type c => cases raw <;> simp [conv] at h
    | callable => cases raw <;> simp [conv] at h
    | cls c => cases raw <;> simp [conv] at h

theorem undash_ok {d : List (Key × PVal)} (h : ∀ p ∈ d, ∃ s, p.1 = .str s) : ∃ d', undash d = some d' ∧
    (∀ p ∈ d', ∃ s, p.1 = .str s) ∧ ∀ p ∈ d', ∃ q ∈ d, p.2 = q.2 := by
  have putK : ∀ (a : List (Key × PVal)) (k : Key) (v : PVal), ∀ p ∈ putKey a k v, p = (k, v) ∨ p ∈ a := by
    intro a k v p hp
    induction a with
    | nil => simp only [putKey, List.mem_singleton] at hp; exact .inl hp
    | cons q a ih =>
      obtain ⟨k', w⟩ := q
      simp only [putKey] at hp
      by_cases hk : k' = k
      · subst hk
        simp only [if_true, List.mem_cons] at hp
        rcases hp with hp | hp
        · exact .inl hp
        · exact .inr (by simp [hp])
      · simp only [hk, if_false, List.mem_cons] at hp
        rcases hp with hp | hp
        · exact .inr (by simp [hp])
        · rcases ih hp with h | h
          · exact .inl h
          · exact .inr (by simp [h])
  have key : ∀ (d : List (Key × PVal)) (acc : List (Key × PVal)), (∀ p ∈ d, ∃ s, p.1 = .str s) →
      (∀ p ∈ acc, ∃ s, p.1 = .str s) →
      ∃ d', d.foldl (fun acc kv => match acc, kv.1 with
          | some a, .str s => some (putKey a (.str (s.map fun c => if c = '-' then '_' else c)) kv.2)
          | _, _ => .none) (some acc) = some d' ∧ (∀ p ∈ d', ∃ s, p.1 = .str s) ∧ ∀ p ∈ d', p ∈ acc ∨ ∃ q ∈ d, p.2 = q.2 := by
    intro d
    induction d with
    | nil => intro acc _ ha; exact ⟨acc, rfl, ha, fun p hp => .inl hp⟩
    | cons q d ih =>
      intro acc hd ha
      obtain ⟨s, hs⟩ := hd q (by simp)
      obtain ⟨d', h1, h2, h3⟩ := ih (putKey acc (.str (s.map fun c => if c = '-' then '_' else c)) q.2)
        (fun p hp => hd p (by simp [hp])) (by
          intro p hp
          rcases putK _ _ _ p hp with rfl | hp
          · exact ⟨_, rfl⟩
          · exact ha p hp)
      refine ⟨d', ?_, h2, ?_⟩
      · rw [List.foldl_cons, hs]; exact h1
      · intro p hp
        rcases h3 p hp with h | ⟨q', hq', he⟩
        · rcases putK _ _ _ p h with rfl | h
          · exact .inr ⟨q, by simp, rfl⟩
          · exact .inl h
        · exact .inr ⟨q', by simp [hq'], he⟩
  obtain ⟨d', h1, h2, h3⟩ := key d [] h (by simp)
  refine ⟨d', h1, h2, fun p hp => ?_⟩
  rcases h3 p hp with h | h
  · cases h
  · exact h

theorem getKey_mem {d : List (Key × PVal)} {k : Str} {v : PVal} (h : getKey d k = some v) : (.str k, v) ∈ d := by
  unfold getKey at h
  induction d with
  | nil => simp [lookupK] at h
  | cons p d ih =>
    obtain ⟨k', w⟩ := p
    simp only [lookupK] at h
    by_cases hk : k' = .str k
    · simp only [hk, if_true, Option.some.injEq] at h
      subst h; simp [hk]
    · simp only [hk, if_false] at h
      simp [ih h]

theorem or_mem {d : List (Key × PVal)} {f : Str × Ty × Option PVal} {v : PVal} (h : (getKey d f.1).or f.2.2 = some v) :
    (.str f.1, v) ∈ d ∨ f.2.2 = some v := by
  cases hg : getKey d f.1 with
  | none => rw [hg] at h; exact .inr (by simpa using h)
  | some w => rw [hg] at h; simp only [Option.some_or, Option.some.injEq] at h; subst h; exact .inl (getKey_mem hg)

/-- No other exceptions -/
theorem conv_no_other {strict : Bool} (hpath : ∀ s, (E.path s).isSome = true) (n : Nat) (raw : PVal) (T : Ty) (hk : StrKeys raw) (hT : Checked T) :
    conv E strict false n raw T ≠ .error .other := by
  induction n generalizing raw T with
  | zero => simp [conv]
  | succ n ih =>
    intro h
    cases hT with
    | str => simp [conv, guardJson_error] at h
    | int => simp [conv, guardJson_error] at h
    | float => simp [conv, guardJson_error] at h
    | bool => simp [conv, guardJson_error] at h
    | none => simp [conv, guardJson_error] at h
    | any => cases raw <;> simp [conv] at h
    | literal l => simp [conv, guardJson_error] at h
    | union hts =>
      simp only [conv] at h
      obtain ⟨t, ht, he⟩ := firstOf_error h (by decide)
      exact ih _ _ hk (hts t ht) he
    | @named c fields hf hd =>
      cases raw <;> simp only [conv, reduceCtorEq, Except.error.injEq] at h
      rename_i d
      cases hk with
      | dict hk1 hk2 =>
      obtain ⟨d', hu, h1, h2⟩ := undash_ok hk1
      simp only [hu] at h
      cases hc : convFields (conv E strict false n) d' fields with
      | error e =>
        simp only [hc, Except.error.injEq] at h
        subst h
        obtain ⟨f, hff, h3 | ⟨v, h3, h4⟩⟩ := convFields_error hc
        · exact absurd h3.2 (by decide)
        · refine ih _ _ ?_ (hf f hff) h4
          rcases or_mem h3 with hm | hm
          · obtain ⟨q, hq, he⟩ := h2 _ hm
            simp only at he
            rw [he]; exact hk2 q hq
          · exact hd f hff v hm
      | ok kw =>
        simp only [hc] at h
        split at h
        · simp at h
        · simp [guardJson_error] at h
    | @data c fields hf hd =>
      cases raw <;> simp only [conv, reduceCtorEq, Except.error.injEq] at h
      rename_i d
      cases hk with
      | dict hk1 hk2 =>
      cases hc : convFields (conv E strict false n) d fields with
      | error e =>
        simp only [hc, Except.error.injEq] at h
        subst h
        obtain ⟨f, hff, h3 | ⟨v, h3, h4⟩⟩ := convFields_error hc
        · exact absurd h3.2 (by decide)
        · refine ih _ _ ?_ (hf f hff) h4
          rcases or_mem h3 with hm | hm
          · exact hk2 _ hm
          · exact hd f hff v hm
      | ok kw =>
        simp only [hc] at h
        split at h
        · simp at h
        · simp [guardJson_error] at h
    | list ht =>
      cases raw <;> simp only [conv, reduceCtorEq, Except.error.injEq] at h
      obtain ⟨v, hv, he⟩ := mapE_error (map_eq_error h)
      cases hk with
      | list hk => exact ih _ _ (hk v hv) ht he
    | tupleOf ht =>
      cases raw <;> simp only [conv, reduceCtorEq, Except.error.injEq] at h
      obtain ⟨v, hv, he⟩ := mapE_error (map_eq_error h)
      cases hk with
      | list hk => exact ih _ _ (hk v hv) ht he
    | @dict t ht =>
      cases raw <;> simp only [conv, reduceCtorEq, Except.error.injEq] at h
      obtain ⟨p, hp, he⟩ := mapE_error (map_eq_error h)
      cases hk with
      | dict hk1 hk2 =>
      cases hc : conv E strict false n p.2 t with
      | error e =>
        simp only [hc, Except.error.injEq] at he
        subst he
        exact ih _ _ (hk2 p hp) ht hc
      | ok w => simp [hc] at he
    | rawList => cases raw <;> simp [conv] at h
    | rawDict => cases raw <;> simp [conv] at h
    | path =>
      cases raw <;> simp only [conv, reduceCtorEq, Except.error.injEq] at h
      rename_i s
      have := hpath s
      cases hp : E.path s <;> simp_all

theorem field_size {fields : List (Str × Ty × Option PVal)} {f : Str × Ty × Option PVal} (h : f ∈ fields) :
    sizeOf f.2.1 < sizeOf fields := by
  have := List.sizeOf_lt_of_mem h
  obtain ⟨a, b, c⟩ := f
  simp only [Prod.mk.sizeOf_spec] at this ⊢
  omega

theorem zip_ty_mem {l : List PVal} {ts : List Ty} {p : PVal × Ty} (h : p ∈ l.zip ts) : p.2 ∈ ts := (List.of_mem_zip (a := p.1) (b := p.2) h).2

/-- The conversion ends: the recursion goes at most as deep as the annotation. -/
theorem conv_ends {strict : Bool} (n : Nat) (raw : PVal) (T : Ty) (hn : sizeOf T ≤ n) : conv E strict false n raw T ≠ .error .fuel := by
  induction n generalizing raw T with
  | zero => cases T <;> simp at hn
  | succ n ih =>
    intro h
    cases T with
    | str => simp [conv, guardJson_error] at h
    | int => simp [conv, guardJson_error] at h
    | float => simp [conv, guardJson_error] at h
    | bool => simp [conv, guardJson_error] at h
    | none => simp [conv, guardJson_error] at h
    | any => cases raw <;> simp [conv] at h
    | literal l => simp [conv, guardJson_error] at h
    | union ts =>
      simp only [conv] at h
      obtain ⟨t, ht, he⟩ := firstOf_error h (by decide)
      have := List.sizeOf_lt_of_mem ht
      simp only [Ty.union.sizeOf_spec] at hn
      exact ih _ _ (by omega) he
    | named c fields =>
      simp only [Ty.named.sizeOf_spec] at hn
      cases raw <;> simp only [conv, reduceCtorEq, Except.error.injEq] at h
      rename_i d
      cases hu : undash d with
      | none => simp [hu] at h
      | some d' =>
      simp only [hu] at h
      cases hc : convFields (conv E strict false n) d' fields with
      | error e =>
        simp only [hc, Except.error.injEq] at h
        subst h
        obtain ⟨f, hff, h3 | ⟨v, h3, h4⟩⟩ := convFields_error hc
        · exact absurd h3.2 (by decide)
        · have := field_size hff
          exact ih _ _ (by omega) h4
      | ok kw =>
        simp only [hc] at h
        split at h
        · simp at h
        · simp [guardJson_error] at h
    | data c fields =>
      simp only [Ty.data.sizeOf_spec] at hn
      cases raw <;> simp only [conv, reduceCtorEq, Except.error.injEq] at h
      rename_i d
      cases hc : convFields (conv E strict false n) d fields with
      | error e =>
        simp only [hc, Except.error.injEq] at h
        subst h
        obtain ⟨f, hff, h3 | ⟨v, h3, h4⟩⟩ := convFields_error hc
        · exact absurd h3.2 (by decide)
        · have := field_size hff
          exact ih _ _ (by omega) h4
      | ok kw =>
        simp only [hc] at h
        split at h
        · simp at h
        · simp [guardJson_error] at h
    | list t =>
      simp only [Ty.list.sizeOf_spec] at hn
      cases raw <;> simp only [conv, reduceCtorEq, Except.error.injEq] at h
      obtain ⟨v, hv, he⟩ := mapE_error (map_eq_error h)
      exact ih _ _ (by omega) he
    | tupleOf t =>
      simp only [Ty.tupleOf.sizeOf_spec] at hn
      cases raw <;> simp only [conv, reduceCtorEq, Except.error.injEq] at h
      obtain ⟨v, hv, he⟩ := mapE_error (map_eq_error h)
      exact ih _ _ (by omega) he
    | tuple ts =>
      simp only [Ty.tuple.sizeOf_spec] at hn
      cases raw <;> simp only [conv, reduceCtorEq, Except.error.injEq] at h
      split at h
      · simp at h
      · obtain ⟨p, hp, he⟩ := mapE_error (map_eq_error h)
        have := List.sizeOf_lt_of_mem (zip_ty_mem hp)
        exact ih _ _ (by omega) he
    | dict t =>
      simp only [Ty.dict.sizeOf_spec] at hn
      cases raw <;> simp only [conv, reduceCtorEq, Except.error.injEq] at h
      obtain ⟨p, hp, he⟩ := mapE_error (map_eq_error h)
      cases hc : conv E strict false n p.2 t with
      | error e =>
        simp only [hc, Except.error.injEq] at he
        subst he
        exact ih _ _ (by omega) hc
      | ok w => simp [hc] at he
    | rawList => cases raw <;> simp [conv] at h
    | rawDict => cases raw <;> simp [conv] at h
    | path =>
      cases raw <;> simp only [conv, reduceCtorEq, Except.error.injEq] at h
      split at h <;> simp at h
    | type c => cases raw <;> simp [conv] at h
    | callable => cases raw <;> simp [conv] at h
    | cls c => cases raw <;> simp [conv] at h

/-- **C72.** A configuration is accepted (in strict mode) only if it fits the annotation completely: all required attributes are there with
values of the right type at every depth, and there is no attribute that is not asked for. A configuration rejected with a `JsonValueError` does
not fit. And the conversion always comes to an end. -/
theorem C72_accepts (raw : PVal) (T : Ty) (n : Nat) :
    ((∃ v, conv E true false n raw T = .ok v) → Fits raw T) ∧
    ((∀ c kw, E.accepts c kw = true) → conv E true false n raw T = .error .json → ¬ Fits raw T) ∧
    (sizeOf T ≤ n → conv E true false n raw T ≠ .error .fuel) :=
  ⟨fun ⟨v, h⟩ => conv_fits n raw T v h, fun hE h => conv_rejects hE n raw T h, conv_ends n raw T⟩

/-- **C72.** So with string keys, classes whose constructors do not raise, and checked annotations, it is accepted exactly if it fits. -/
theorem C72_accepts_iff (raw : PVal) (T : Ty) (n : Nat) (hn : sizeOf T ≤ n) (hE : ∀ c kw, E.accepts c kw = true)
    (hpath : ∀ s, (E.path s).isSome = true) (hk : StrKeys raw) (hT : Checked T) :
    (∃ v, conv E true false n raw T = .ok v) ↔ Fits raw T := by
  refine ⟨fun ⟨v, h⟩ => conv_fits n raw T v h, fun hf => ?_⟩
  cases hc : conv E true false n raw T with
  | ok v => exact ⟨v, rfl⟩
  | error e =>
    cases e with
    | json => exact absurd hf (conv_rejects hE n raw T hc)
    | other => exact absurd hc (conv_no_other hpath n raw T hk hT)
    | fuel => exact absurd hc (conv_ends n raw T hn)

/-- The number a value stands for -/
def numOf : PVal → Option ℚ
  | .bool b => some (if b then 1 else 0)
  | .int n => some n
  | .float a b => if b = 0 then .none else some (a / b)
  | _ => .none
/-- The number a literal stands for -/
def litNum : Lit → Option ℚ
  | .bool b => some (if b then 1 else 0)
  | .int n => some n
  | _ => .none

/-- **C72.** A value is accepted for a literal exactly if it is equal to it in the sense of Python: the same string, both `None`, or equal numbers. -/
theorem C72_literal (v : PVal) (x : Lit) : litEq v x = true ↔
    (v = .none ∧ x = .none) ∨ (∃ s, v = .str s ∧ x = .str s) ∨ ∃ q, numOf v = some q ∧ litNum x = some q := by
  have hdiv : ∀ (a : Int) (b : Nat) (c : Int), b ≠ 0 → ((c : ℚ) = (a : ℚ) / b ↔ a = c * b) := by
    intro a b c hb
    rw [eq_div_iff (by exact_mod_cast hb)]
    constructor
    · intro h; exact_mod_cast h.symm
    · intro h; exact_mod_cast h.symm
  cases v <;> cases x <;> simp [litEq, numOf, litNum]
  case str.str s t => exact eq_comm
  case bool.bool a b => cases a <;> cases b <;> simp
  case bool.int b n =>
    cases b
    · simp [eq_comm]
    · simp [eq_comm]
  case int.bool n b =>
    cases b
    · simp [eq_comm]
    · simp [eq_comm]
  case int.int m n => exact eq_comm
  case float.bool a b c =>
    by_cases hb : b = 0
    · simp [hb]
    · have h0 := hdiv a b 0 hb
      have h1 := hdiv a b 1 hb
      cases c
      · simpa [hb] using h0.symm
      · simpa [hb, eq_comm] using h1.symm
  case float.int a b n =>
    by_cases hb : b = 0
    · simp [hb]
    · simpa [hb, eq_comm] using (hdiv a b n hb).symm

/-- **C72.** Of the types of a union, the first one that fits is used. -/
theorem C72_union (raw : PVal) (ts : List Ty) (n : Nat) (v : PVal) (hE : ∀ c kw, E.accepts c kw = true)
    (h : conv E true false (n + 1) raw (.union ts) = .ok v) :
    ∃ pre t post, ts = pre ++ t :: post ∧ conv E true false n raw t = .ok v ∧ ∀ u ∈ pre, ¬ Fits raw u := by
  simp only [conv] at h
  obtain ⟨pre, t, post, h0, h1, h2⟩ := firstOf_ok h
  exact ⟨pre, t, post, h0, h1, fun u hu => conv_rejects hE n raw u (h2 u hu)⟩

/-! ## C73: the values are of the annotated types -/

theorem conv_conforms {strict imports : Bool} (n : Nat) (raw : PVal) (T : Ty) (v : PVal) (hk : StrKeys raw) (hT : Checked T)
    (h : conv E strict imports n raw T = .ok v) : Conforms E v T := by
  induction n generalizing raw T v with
  | zero => simp [conv] at h
  | succ n ih =>
    cases hT with
    | str =>
      simp only [conv, guardJson_ok] at h
      obtain ⟨h, rfl⟩ := h
      cases raw <;> simp [isStr] at h
      exact .str _
    | int =>
      simp only [conv, guardJson_ok] at h
      obtain ⟨h, rfl⟩ := h
      cases raw <;> simp [isInt] at h
      · exact .intBool _
      · exact .int _
    | float =>
      simp only [conv, guardJson_ok] at h
      obtain ⟨h, rfl⟩ := h
      cases raw <;> simp [isFloat, isInt] at h
      · exact .floatBool _
      · exact .floatInt _
      · exact .float _ _
    | bool =>
      simp only [conv, guardJson_ok] at h
      obtain ⟨h, rfl⟩ := h
      cases raw <;> simp [isBool] at h
      exact .bool _
    | none =>
      simp only [conv, guardJson_ok] at h
      obtain ⟨h, rfl⟩ := h
      cases raw <;> simp [isNone] at h
      exact .none
    | any => exact .any _
    | literal l =>
      simp only [conv, guardJson_ok, List.any_eq_true] at h
      obtain ⟨⟨x, hx, he⟩, rfl⟩ := h
      exact .literal hx he
    | union hts =>
      simp only [conv] at h
      obtain ⟨pre, t, post, rfl, h1, _⟩ := firstOf_ok h
      exact .union (t := t) (by simp) (ih _ _ _ hk (hts t (by simp)) h1)
    | @named c fields hf hd =>
      cases raw <;> simp only [conv, reduceCtorEq] at h
      rename_i d
      cases hk with
      | dict hk1 hk2 =>
      obtain ⟨d', hu, h1, h2⟩ := undash_ok hk1
      simp only [hu] at h
      cases hc : convFields (conv E strict imports n) d' fields with
      | error e => simp [hc] at h
      | ok kw =>
        simp only [hc] at h
        split at h
        · simp at h
        · rw [guardJson_ok] at h
          obtain ⟨_, rfl⟩ := h
          obtain ⟨h3, _, h4⟩ := convFields_ok hc
          refine .named h3 fun p hp => ?_
          obtain ⟨v, h5, h6⟩ := h4 p hp
          have hpf : p.2 ∈ fields := (List.of_mem_zip (a := p.1) (b := p.2) hp).2
          refine ih _ _ _ ?_ (hf p.2 hpf) h6
          rcases or_mem h5 with hm | hm
          · obtain ⟨q, hq, he⟩ := h2 _ hm
            simp only at he
            rw [he]; exact hk2 q hq
          · exact hd p.2 hpf v hm
    | @data c fields hf hd =>
      cases raw <;> simp only [conv, reduceCtorEq] at h
      rename_i d
      cases hk with
      | dict hk1 hk2 =>
      cases hc : convFields (conv E strict imports n) d fields with
      | error e => simp [hc] at h
      | ok kw =>
        simp only [hc] at h
        split at h
        · simp at h
        · rw [guardJson_ok] at h
          obtain ⟨_, rfl⟩ := h
          obtain ⟨h3, _, h4⟩ := convFields_ok hc
          refine .data h3 fun p hp => ?_
          obtain ⟨v, h5, h6⟩ := h4 p hp
          have hpf : p.2 ∈ fields := (List.of_mem_zip (a := p.1) (b := p.2) hp).2
          refine ih _ _ _ ?_ (hf p.2 hpf) h6
          rcases or_mem h5 with hm | hm
          · exact hk2 _ hm
          · exact hd p.2 hpf v hm
    | list ht =>
      cases raw <;> simp only [conv, reduceCtorEq] at h
      obtain ⟨m, h1, rfl⟩ := map_eq_ok h
      cases hk with
      | list hk =>
      refine .list fun r hr => ?_
      obtain ⟨w, hw, he⟩ := (mapE_ok_mem h1).2 r hr
      exact ih _ _ _ (hk w hw) ht he
    | tupleOf ht =>
      cases raw <;> simp only [conv, reduceCtorEq] at h
      obtain ⟨m, h1, rfl⟩ := map_eq_ok h
      cases hk with
      | list hk =>
      refine .tupleOf fun r hr => ?_
      obtain ⟨w, hw, he⟩ := (mapE_ok_mem h1).2 r hr
      exact ih _ _ _ (hk w hw) ht he
    | @dict t ht =>
      cases raw <;> simp only [conv, reduceCtorEq] at h
      obtain ⟨m, h1, rfl⟩ := map_eq_ok h
      cases hk with
      | dict hk1 hk2 =>
      rename_i d
      have key : ∀ r ∈ m, ∃ p : Key × PVal, p ∈ d ∧ r.1 = p.1 ∧ conv E strict imports n p.2 t = .ok r.2 := by
        intro r hr
        obtain ⟨p, hp, he⟩ := (mapE_ok_mem h1).2 r hr
        refine ⟨p, hp, ?_⟩
        cases hc : conv E strict imports n p.2 t with
        | error e => simp [hc] at he
        | ok w =>
          simp only [hc, Except.ok.injEq] at he
          subst he
          exact ⟨rfl, rfl⟩
      refine .dict ?_ ?_
      · intro r hr
        obtain ⟨p, hp, h1, _⟩ := key r hr
        rw [h1]; exact hk1 p hp
      · intro r hr
        obtain ⟨p, hp, _, h2⟩ := key r hr
        exact ih _ _ _ (hk2 p hp) ht h2
    | rawList =>
      cases raw <;> simp only [conv, reduceCtorEq, Except.ok.injEq] at h
      subst h; exact .rawList _
    | rawDict =>
      cases raw <;> simp only [conv, reduceCtorEq, Except.ok.injEq] at h
      subst h; exact .rawDict _
    | path =>
      cases raw <;> simp only [conv, reduceCtorEq, Except.ok.injEq] at h
      · rename_i s
        cases hp : E.path s with
        | none => simp [hp] at h
        | some p =>
          simp only [hp, Except.ok.injEq] at h
          subst h; exact .path _
      · subst h; exact .path _

/-- **C73** in full: what is returned is a value of the annotated type. -/
def C73_statement : Prop :=
  ∀ (E : Env) (strict imports : Bool) (n : Nat) (raw : PVal) (T : Ty) (v : PVal),
    conv E strict imports n raw T = .ok v → Conforms E v T

/-- **C73, the part that holds**: for annotations made of primitive types, `Any`, `Literal`, unions, named tuples, dataclasses, lists, tuples of
any length, dicts and paths, and data with string keys. Missing: tuples of fixed size, other classes, other keys. -/
theorem C73_typed_partial (strict imports : Bool) (n : Nat) (raw : PVal) (T : Ty) (v : PVal) (hk : StrKeys raw) (hT : Checked T)
    (h : conv E strict imports n raw T = .ok v) : Conforms E v T :=
  conv_conforms n raw T v hk hT h

/-- An environment for examples: one module `m` with a class `Foo` without parameters; no class is a subclass of another one. -/
def exEnv : Env where
  module m := if m = "m".toList then some fun o => if o = "Foo".toList then some (.cls o .none []) else .none else .none
  energon _ := .none
  isSub a b := a = b
  path s := some s
  accepts _ _ := true
  call _ _ := .none

/-- **C73 is false of the code**: a tuple of fixed size is returned as a list. -/
theorem C73_violated_tuple : conv exEnv true false 2 (.list [.int 1, .str ['a']]) (.tuple [.int, .str]) = .ok (.list [.int 1, .str ['a']]) ∧
    ¬ Conforms exEnv (.list [.int 1, .str ['a']]) (.tuple [.int, .str]) :=
  ⟨by rfl, fun h => by cases h⟩

/-- **C73 is false of the code**: keys of `Dict[str, ...]` are not checked. -/
theorem C73_violated_keys : conv exEnv true false 2 (.dict [(.int 1, .int 1)]) (.dict .int) = .ok (.dict [(.int 1, .int 1)]) ∧
    ¬ Conforms exEnv (.dict [(.int 1, .int 1)]) (.dict .int) := by
  refine ⟨by rfl, fun h => ?_⟩
  cases h with
  | dict h _ =>
    obtain ⟨s, hs⟩ := h (.int 1, .int 1) (by simp)
    cases hs

/-- **C73 is false of the code**: where an object of a class is expected, anything is accepted, also an instance of an unrelated class named in the
configuration. -/
theorem C73_violated_class (c : Str) (hc : c ≠ "Foo".toList) :
    conv exEnv true true 1 (.str ['x']) (.cls c) = .ok (.str ['x']) ∧ ¬ Conforms exEnv (.str ['x']) (.cls c) ∧
    conv exEnv true true 1 (.dict [(.str moduleKey, .str ['m']), (.str classKey, .str "Foo".toList)]) (.cls c) = .ok (.obj "Foo".toList []) ∧
    ¬ Conforms exEnv (.obj "Foo".toList []) (.cls c) := by
  refine ⟨rfl, (fun h => by cases h), by rfl, (fun h => ?_)⟩
  cases h with
  | cls h =>
    simp only [exEnv, decide_eq_true_eq] at h
    exact hc h.symm

theorem C73_violated : ¬ C73_statement := fun h => C73_violated_tuple.2 (h _ _ _ _ _ _ _ C73_violated_tuple.1)

/-! ## C74: round trip -/

theorem toJsons_ok {l m : List PVal} (h : toJsons l = some m) : m.length = l.length ∧ ∀ p ∈ l.zip m, toJson p.1 = some p.2 := by
  induction l generalizing m with
  | nil => simp only [toJsons, Option.some.injEq] at h; subst h; simp
  | cons v l ih =>
    simp only [toJsons] at h
    cases hv : toJson v with
    | none => simp [hv] at h
    | some w =>
      cases hl : toJsons l with
      | none => simp [hv, hl] at h
      | some m' =>
        simp only [hv, hl, Option.some.injEq] at h
        subst h
        obtain ⟨h1, h2⟩ := ih hl
        refine ⟨by simp [h1], ?_⟩
        intro p hp
        simp only [List.zip_cons_cons, List.mem_cons] at hp
        rcases hp with rfl | hp
        · exact hv
        · exact h2 p hp

theorem toJsonDict_ok {l m : List (Key × PVal)} (h : toJsonDict l = some m) :
    m.length = l.length ∧ ∀ p ∈ l.zip m, p.2.1 = p.1.1 ∧ toJson p.1.2 = some p.2.2 := by
  induction l generalizing m with
  | nil => simp only [toJsonDict, Option.some.injEq] at h; subst h; simp
  | cons kv l ih =>
    obtain ⟨k, v⟩ := kv
    simp only [toJsonDict] at h
    cases hv : toJson v with
    | none => simp [hv] at h
    | some w =>
      cases hl : toJsonDict l with
      | none => simp [hv, hl] at h
      | some m' =>
        simp only [hv, hl, Option.some.injEq] at h
        subst h
        obtain ⟨h1, h2⟩ := ih hl
        refine ⟨by simp [h1], ?_⟩
        intro p hp
        simp only [List.zip_cons_cons, List.mem_cons] at hp
        rcases hp with rfl | hp
        · exact ⟨rfl, hv⟩
        · exact h2 p hp

theorem toJsonFields_ok {l : List (Str × PVal)} {m : List (Key × PVal)} (h : toJsonFields l = some m) :
    m.map (·.1) = l.map (fun p => Key.str p.1) ∧
    ((l.map (·.1)).Nodup → ∀ p ∈ l, ∃ w, getKey m p.1 = some w ∧ toJson p.2 = some w) := by
  induction l generalizing m with
  | nil => simp only [toJsonFields, Option.some.injEq] at h; subst h; simp
  | cons kv l ih =>
    obtain ⟨k, v⟩ := kv
    simp only [toJsonFields] at h
    cases hv : toJson v with
    | none => simp [hv] at h
    | some w =>
      cases hl : toJsonFields l with
      | none => simp [hv, hl] at h
      | some m' =>
        simp only [hv, hl, Option.some.injEq] at h
        subst h
        obtain ⟨h1, h2⟩ := ih hl
        refine ⟨by simp [h1], ?_⟩
        intro hn p hp
        simp only [List.map_cons, List.nodup_cons] at hn
        rcases List.mem_cons.1 hp with hq | hp
        · subst hq; exact ⟨w, by simp [getKey, lookupK], hv⟩
        · have hne : k ≠ p.1 := by
            intro he
            exact hn.1 (he ▸ List.mem_map_of_mem (f := (·.1)) hp)
          obtain ⟨w', h3, h4⟩ := h2 hn.2 p hp
          refine ⟨w', ?_, h4⟩
          simpa [getKey, lookupK, hne] using h3

theorem undash_id {d : List (Key × PVal)} (h : ∀ p ∈ d, ∃ s, p.1 = .str s ∧ '-' ∉ s) (hn : (d.map (·.1)).Nodup) : undash d = some d := by
  have put : ∀ (a : List (Key × PVal)) (k : Key) (v : PVal), k ∉ a.map (·.1) → putKey a k v = a ++ [(k, v)] := by
    intro a k v hk
    induction a with
    | nil => rfl
    | cons q a ih =>
      simp only [List.map_cons, List.mem_cons, not_or] at hk
      simp [putKey, Ne.symm hk.1, ih hk.2]
  have key : ∀ (d acc : List (Key × PVal)), (∀ p ∈ d, ∃ s, p.1 = .str s ∧ '-' ∉ s) → ((acc ++ d).map (·.1)).Nodup →
      d.foldl (fun acc kv => match acc, kv.1 with
          | some a, .str s => some (putKey a (.str (s.map fun c => if c = '-' then '_' else c)) kv.2)
          | _, _ => .none) (some acc) = some (acc ++ d) := by
    intro d
    induction d with
    | nil => simp
    | cons q d ih =>
      intro acc hd hn
      obtain ⟨s, hs, hm⟩ := hd q (by simp)
      have hmap : (s.map fun c => if c = '-' then '_' else c) = s := by
        calc _ = s.map id := List.map_congr_left fun c hc => by
              have : c ≠ '-' := by rintro rfl; exact hm hc
              simp [this]
          _ = s := by simp
      have hq : q = (.str s, q.2) := Prod.ext hs rfl
      rw [List.foldl_cons, hs]
      simp only [hmap]
      rw [put _ _ _ ?_, ← hq, ih _ (fun p hp => hd p (by simp [hp])) (by simpa using hn)]
      · simp
      · intro hin
        rw [List.map_append, List.map_cons, hs] at hn
        have := (List.nodup_append.1 hn).2.2 _ hin (.str s) (by simp)
        exact this rfl
  have := key d [] h (by simpa using hn)
  rw [List.nil_append] at this
  exact this

theorem toJson_strKeys {v w : PVal} (hv : StrKeys v) (h : toJson v = some w) : StrKeys w := by
  induction hv generalizing w with
  | none => simp only [toJson, Option.some.injEq] at h; subst h; exact .none
  | bool b => simp only [toJson, Option.some.injEq] at h; subst h; exact .bool _
  | int b => simp only [toJson, Option.some.injEq] at h; subst h; exact .int _
  | float a b => simp only [toJson, Option.some.injEq] at h; subst h; exact .float _ _
  | str b => simp only [toJson, Option.some.injEq] at h; subst h; exact .str _
  | path b => simp [toJson] at h
  | @list l hl ih =>
    simp only [toJson, Option.map_eq_some_iff] at h
    obtain ⟨m, hm, rfl⟩ := h
    obtain ⟨h1, h2⟩ := toJsons_ok hm
    refine .list fun x hx => ?_
    obtain ⟨y, hy⟩ := (List.mem_iff_getElem.1 hx)
    obtain ⟨hy, rfl⟩ := hy
    have hz : (l[y]'(by omega), m[y]) ∈ l.zip m := by
      rw [List.mem_iff_getElem]
      exact ⟨y, by simp; omega, by simp⟩
    exact ih _ (List.getElem_mem _) (h2 _ hz)
  | @tuple l hl ih =>
    simp only [toJson, Option.map_eq_some_iff] at h
    obtain ⟨m, hm, rfl⟩ := h
    obtain ⟨h1, h2⟩ := toJsons_ok hm
    refine .list fun x hx => ?_
    obtain ⟨y, hy⟩ := (List.mem_iff_getElem.1 hx)
    obtain ⟨hy, rfl⟩ := hy
    have hz : (l[y]'(by omega), m[y]) ∈ l.zip m := by
      rw [List.mem_iff_getElem]
      exact ⟨y, by simp; omega, by simp⟩
    exact ih _ (List.getElem_mem _) (h2 _ hz)
  | @dict d hd1 hd2 ih =>
    simp only [toJson, Option.map_eq_some_iff] at h
    obtain ⟨m, hm, rfl⟩ := h
    obtain ⟨h1, h2⟩ := toJsonDict_ok hm
    have key : ∀ x ∈ m, ∃ p ∈ d, x.1 = p.1 ∧ toJson p.2 = some x.2 := by
      intro x hx
      obtain ⟨y, hy, rfl⟩ := (List.mem_iff_getElem.1 hx)
      have hz : (d[y]'(by omega), m[y]) ∈ d.zip m := by
        rw [List.mem_iff_getElem]
        exact ⟨y, by simp; omega, by simp⟩
      exact ⟨_, List.getElem_mem _, h2 _ hz⟩
    refine .dict ?_ ?_
    · intro x hx
      obtain ⟨p, hp, h3, _⟩ := key x hx
      rw [h3]; exact hd1 p hp
    · intro x hx
      obtain ⟨p, hp, _, h4⟩ := key x hx
      exact ih p hp h4
  | @named c fs hf ih =>
    simp only [toJson, Option.map_eq_some_iff] at h
    obtain ⟨m, hm, rfl⟩ := h
    have : ∀ (l : List (Str × PVal)) (m : List (Key × PVal)), toJsonFields l = some m → ∀ x ∈ m, ∃ p ∈ l, x.1 = .str p.1 ∧ toJson p.2 = some x.2 := by
      intro l
      induction l with
      | nil => intro m h; simp only [toJsonFields, Option.some.injEq] at h; subst h; simp
      | cons kv l ih =>
        obtain ⟨k, v⟩ := kv
        intro m h
        simp only [toJsonFields] at h
        cases hv : toJson v with
        | none => simp [hv] at h
        | some w =>
          cases hl : toJsonFields l with
          | none => simp [hv, hl] at h
          | some m' =>
            simp only [hv, hl, Option.some.injEq] at h
            subst h
            intro x hx
            rcases List.mem_cons.1 hx with rfl | hx
            · exact ⟨(k, v), by simp, rfl, hv⟩
            · obtain ⟨p, hp, h⟩ := ih m' hl x hx
              exact ⟨p, by simp [hp], h⟩
    have key := this fs m hm
    exact .dict (fun x hx => by obtain ⟨p, _, h, _⟩ := key x hx; exact ⟨_, h⟩)
      (fun x hx => by obtain ⟨p, hp, _, h⟩ := key x hx; exact ih p hp h)
  | @data c fs hf ih =>
    simp only [toJson, Option.map_eq_some_iff] at h
    obtain ⟨m, hm, rfl⟩ := h
    have : ∀ (l : List (Str × PVal)) (m : List (Key × PVal)), toJsonFields l = some m → ∀ x ∈ m, ∃ p ∈ l, x.1 = .str p.1 ∧ toJson p.2 = some x.2 := by
      intro l
      induction l with
      | nil => intro m h; simp only [toJsonFields, Option.some.injEq] at h; subst h; simp
      | cons kv l ih =>
        obtain ⟨k, v⟩ := kv
        intro m h
        simp only [toJsonFields] at h
        cases hv : toJson v with
        | none => simp [hv] at h
        | some w =>
          cases hl : toJsonFields l with
          | none => simp [hv, hl] at h
          | some m' =>
            simp only [hv, hl, Option.some.injEq] at h
            subst h
            intro x hx
            rcases List.mem_cons.1 hx with rfl | hx
            · exact ⟨(k, v), by simp, rfl, hv⟩
            · obtain ⟨p, hp, h⟩ := ih m' hl x hx
              exact ⟨p, by simp [hp], h⟩
    have key := this fs m hm
    exact .dict (fun x hx => by obtain ⟨p, _, h, _⟩ := key x hx; exact ⟨_, h⟩)
      (fun x hx => by obtain ⟨p, hp, _, h⟩ := key x hx; exact ih p hp h)
  | obj c a => simp [toJson] at h
  | other c => simp [toJson] at h

theorem fields_roundtrip {n : Nat} {fs : List (Str × PVal)} {fields : List (Str × Ty × Option PVal)} {m : List (Key × PVal)}
    (hn : fs.map (·.1) = fields.map (·.1)) (hnd : (fs.map (·.1)).Nodup) (hm : toJsonFields fs = some m)
    (h : ∀ p ∈ fs.zip fields, ∀ w, toJson p.1.2 = some w → conv E true false n w p.2.2.1 = .ok p.1.2) :
    convFields (conv E true false n) m fields = .ok fs ∧ onlyFields m fields = true := by
  obtain ⟨h1, h2⟩ := toJsonFields_ok hm
  have hlen : fs.length = fields.length := by simpa using congrArg List.length hn
  constructor
  · refine mapE_eq hlen fun p hp => ?_
    have hp' : (p.2, p.1) ∈ fs.zip fields := mem_zip_swap hp
    have hname : p.2.1 = p.1.1 := by
      obtain ⟨i, hi, he⟩ := List.mem_iff_getElem.1 hp
      simp only [List.length_zip] at hi
      simp only [List.getElem_zip] at he
      have e1 : p.1 = fields[i]'(by omega) := by rw [← he]
      have e2 : p.2 = fs[i]'(by omega) := by rw [← he]
      have : (fs.map (·.1))[i]'(by simp; omega) = (fields.map (·.1))[i]'(by simp; omega) := by simp only [hn]
      rw [e1, e2]
      simpa using this
    obtain ⟨w, hw1, hw2⟩ := h2 hnd p.2 (List.of_mem_zip (a := p.2) (b := p.1) hp').1
    rw [hname] at hw1
    have := h _ hp' w hw2
    simp only [hw1, Option.some_or, this]
    rw [← hname]
  · rw [onlyFields_iff]
    intro p hp
    have := List.mem_map_of_mem (f := (·.1)) hp
    rw [h1] at this
    obtain ⟨q, hq, he⟩ := List.mem_map.1 this
    have := List.mem_map_of_mem (f := (·.1)) hq
    rw [hn] at this
    obtain ⟨f, hf, he'⟩ := List.mem_map.1 this
    exact ⟨f, hf, by rw [← he, ← he']⟩

theorem litEq_json {v : PVal} {x : Lit} (h : litEq v x = true) : toJson v = some v := by
  cases v <;> simp [litEq] at h <;> rfl

theorem exact_roundtrip (hE : ∀ c kw, E.accepts c kw = true) (hpath : ∀ s, (E.path s).isSome = true) {v : PVal} {T : Ty}
    (hv : Exact v T) (hT : Checked T) (hk : StrKeys v) (w : PVal) (hw : toJson v = some w) (n : Nat) (hn : sizeOf T ≤ n) :
    conv E true false n w T = .ok v := by
  induction hv generalizing n w with
  | str s => cases n with
    | zero => simp at hn
    | succ n => simp only [toJson, Option.some.injEq] at hw; subst hw; rfl
  | int s => cases n with
    | zero => simp at hn
    | succ n => simp only [toJson, Option.some.injEq] at hw; subst hw; rfl
  | intBool s => cases n with
    | zero => simp at hn
    | succ n => simp only [toJson, Option.some.injEq] at hw; subst hw; rfl
  | float a b => cases n with
    | zero => simp at hn
    | succ n => simp only [toJson, Option.some.injEq] at hw; subst hw; rfl
  | floatInt s => cases n with
    | zero => simp at hn
    | succ n => simp only [toJson, Option.some.injEq] at hw; subst hw; rfl
  | floatBool s => cases n with
    | zero => simp at hn
    | succ n => simp only [toJson, Option.some.injEq] at hw; subst hw; rfl
  | bool s => cases n with
    | zero => simp at hn
    | succ n => simp only [toJson, Option.some.injEq] at hw; subst hw; rfl
  | none => cases n with
    | zero => simp at hn
    | succ n => simp only [toJson, Option.some.injEq] at hw; subst hw; rfl
  | @any v hv =>
    cases n with
    | zero => simp at hn
    | succ n =>
      rw [hv] at hw; cases hw
      cases v <;> simp [conv]
  | @literal v l x hx he =>
    cases n with
    | zero => simp at hn
    | succ n =>
      rw [litEq_json he] at hw; cases hw
      simp only [conv, guardJson_ok, and_true, List.any_eq_true]
      exact ⟨x, hx, he⟩
  | @first v t ts hv ih =>
    cases n with
    | zero => simp at hn
    | succ n =>
      cases hT with
      | union hts =>
      have := ih (hts t (by simp)) hk w hw n (by simp only [Ty.union.sizeOf_spec, List.cons.sizeOf_spec] at hn; omega)
      simp only [conv, firstOf, this]
  | @later v w' t ts hw' hf hv ih =>
    cases n with
    | zero => simp at hn
    | succ n =>
      cases hT with
      | union hts =>
      rw [hw'] at hw; cases hw
      have hrest := ih (.union fun t ht => hts t (by simp [ht])) hk w' hw' (n + 1)
        (by simp only [Ty.union.sizeOf_spec, List.cons.sizeOf_spec] at hn ⊢; omega)
      have hsize : sizeOf t ≤ n := by simp only [Ty.union.sizeOf_spec, List.cons.sizeOf_spec] at hn; omega
      simp only [conv] at hrest
      simp only [conv, firstOf]
      cases hc : conv E true false n w' t with
      | ok r => exact absurd (conv_fits n w' t r hc) hf
      | error e =>
        cases e with
        | json => simpa using hrest
        | other => exact absurd hc (conv_no_other hpath n w' t (toJson_strKeys hk hw') (hts t (by simp)))
        | fuel => exact absurd hc (conv_ends n w' t hsize)
  | @named c fs fields hnm hnd hdash hv ih =>
    cases n with
    | zero => simp at hn
    | succ n =>
      cases hT with
      | named hf hd =>
      cases hk with
      | named hk =>
      simp only [toJson, Option.map_eq_some_iff] at hw
      obtain ⟨m, hm, rfl⟩ := hw
      obtain ⟨h1, _⟩ := toJsonFields_ok hm
      have hu : undash m = some m := by
        apply undash_id
        · intro p hp
          have := List.mem_map_of_mem (f := (·.1)) hp
          rw [h1] at this
          obtain ⟨q, hq, he⟩ := List.mem_map.1 this
          exact ⟨q.1, he.symm, hdash q hq⟩
        · rw [h1]
          have : (fs.map fun p => Key.str p.1) = (fs.map (·.1)).map Key.str := by simp
          rw [this]
          exact List.Pairwise.map Key.str (fun a b (h : a ≠ b) => fun he => h (by injection he)) hnd
      obtain ⟨h2, h3⟩ := fields_roundtrip (E := E) (n := n) hnm hnd hm (by
        intro p hp w hw
        have hmem := List.of_mem_zip (a := p.1) (b := p.2) hp
        have := field_size hmem.2
        exact ih p hp (hf _ hmem.2) (hk _ hmem.1) w hw n (by simp only [Ty.named.sizeOf_spec] at hn; omega))
      simp [conv, hu, h2, h3, hE, guardJson]
  | @data c fs fields hnm hnd hv ih =>
    cases n with
    | zero => simp at hn
    | succ n =>
      cases hT with
      | data hf hd =>
      cases hk with
      | data hk =>
      simp only [toJson, Option.map_eq_some_iff] at hw
      obtain ⟨m, hm, rfl⟩ := hw
      obtain ⟨h2, h3⟩ := fields_roundtrip (E := E) (n := n) hnm hnd hm (by
        intro p hp w hw
        have hmem := List.of_mem_zip (a := p.1) (b := p.2) hp
        have := field_size hmem.2
        exact ih p hp (hf _ hmem.2) (hk _ hmem.1) w hw n (by simp only [Ty.data.sizeOf_spec] at hn; omega))
      simp [conv, h2, h3, hE, guardJson]
  | @list l t hv ih =>
    cases n with
    | zero => simp at hn
    | succ n =>
      cases hT with
      | list ht =>
      cases hk with
      | list hk =>
      simp only [toJson, Option.map_eq_some_iff] at hw
      obtain ⟨m, hm, rfl⟩ := hw
      obtain ⟨h1, h2⟩ := toJsons_ok hm
      have : mapE (fun v => conv E true false n v t) m = .ok l := by
        refine mapE_eq h1.symm fun p hp => ?_
        have hp' : (p.2, p.1) ∈ l.zip m := mem_zip_swap hp
        have hmem := (List.of_mem_zip (a := p.2) (b := p.1) hp').1
        exact ih _ hmem ht (hk _ hmem) _ (h2 _ hp') n (by simp only [Ty.list.sizeOf_spec] at hn; omega)
      simp [conv, this, Except.map]
  | @tupleOf l t hv ih =>
    cases n with
    | zero => simp at hn
    | succ n =>
      cases hT with
      | tupleOf ht =>
      cases hk with
      | tuple hk =>
      simp only [toJson, Option.map_eq_some_iff] at hw
      obtain ⟨m, hm, rfl⟩ := hw
      obtain ⟨h1, h2⟩ := toJsons_ok hm
      have : mapE (fun v => conv E true false n v t) m = .ok l := by
        refine mapE_eq h1.symm fun p hp => ?_
        have hp' : (p.2, p.1) ∈ l.zip m := mem_zip_swap hp
        have hmem := (List.of_mem_zip (a := p.2) (b := p.1) hp').1
        exact ih _ hmem ht (hk _ hmem) _ (h2 _ hp') n (by simp only [Ty.tupleOf.sizeOf_spec] at hn; omega)
      simp [conv, this, Except.map]
  | @dict d t hv ih =>
    cases n with
    | zero => simp at hn
    | succ n =>
      cases hT with
      | dict ht =>
      cases hk with
      | dict hk1 hk2 =>
      simp only [toJson, Option.map_eq_some_iff] at hw
      obtain ⟨m, hm, rfl⟩ := hw
      obtain ⟨h1, h2⟩ := toJsonDict_ok hm
      have : mapE (fun kv : Key × PVal => match conv E true false n kv.2 t with
          | .ok v => Except.ok (kv.1, v)
          | .error e => .error e) m = .ok d := by
        refine mapE_eq h1.symm fun p hp => ?_
        have hp' : (p.2, p.1) ∈ d.zip m := mem_zip_swap hp
        have hmem := (List.of_mem_zip (a := p.2) (b := p.1) hp').1
        obtain ⟨h3, h4⟩ := h2 _ hp'
        simp only at h3 h4
        have := ih _ hmem ht (hk2 _ hmem) _ h4 n (by simp only [Ty.dict.sizeOf_spec] at hn; omega)
        simp only [this, h3]
      exact congrArg (Except.map PVal.dict) this
  | rawList hl => cases n with
    | zero => simp at hn
    | succ n => rw [hl] at hw; cases hw; rfl
  | rawDict hl => cases n with
    | zero => simp at hn
    | succ n => rw [hl] at hw; cases hw; rfl

/-- **C74.** Typed data written with `to_json_object` and read with `raw_to_typed` (strict) are the same again: for all annotations of the
checked kinds and all values that are determined by their JSON form. -/
theorem C74_round_trip_partial (hE : ∀ c kw, E.accepts c kw = true) (hpath : ∀ s, (E.path s).isSome = true) (v : PVal) (T : Ty)
    (hv : Exact v T) (hT : Checked T) (hk : StrKeys v) (w : PVal) (hw : toJson v = some w) (n : Nat) (hn : sizeOf T ≤ n) :
    conv E true false n w T = .ok v :=
  exact_roundtrip hE hpath hv hT hk w hw n hn

/-- structs.py:11-23 `WebdatasetInfo`, `WebdatasetSplits` -/
def infoTy : Ty := .data "WebdatasetInfo".toList [("shard_counts".toList, .dict .int, .none)]
def splitsTy : Ty := .data "WebdatasetSplits".toList
  [("split_parts".toList, .dict (.list .str), .none), ("exclude".toList, .list .str, some (.list []))]
/-- An instance of `WebdatasetInfo` -/
def infoVal (counts : List (Str × Nat)) : PVal :=
  .data "WebdatasetInfo".toList [("shard_counts".toList, .dict (counts.map fun p => (.str p.1, .int p.2)))]
/-- An instance of `WebdatasetSplits` -/
def splitsVal (parts : List (Str × List Str)) (exclude : List Str) : PVal :=
  .data "WebdatasetSplits".toList
    [("split_parts".toList, .dict (parts.map fun p => (.str p.1, .list (p.2.map .str)))), ("exclude".toList, .list (exclude.map .str))]

theorem toJsonDict_map {α : Type} (f : α → Key × PVal) (hf : ∀ a, toJson (f a).2 = some (f a).2) (l : List α) :
    toJsonDict (l.map f) = some (l.map f) := by
  induction l with
  | nil => rfl
  | cons a l ih => simp only [List.map_cons, toJsonDict, hf, ih]

theorem toJsons_map {α : Type} (f : α → PVal) (hf : ∀ a, toJson (f a) = some (f a)) (l : List α) : toJsons (l.map f) = some (l.map f) := by
  induction l with
  | nil => rfl
  | cons a l ih => simp only [List.map_cons, toJsons, hf, ih]

/-- **C74.** The metadata files of a prepared dataset (`.info.yaml`, `split.yaml`) are read as they were written, for all shard counts, split parts and
exclusions. -/
theorem C74_metadata (hE : ∀ c kw, E.accepts c kw = true) (counts : List (Str × Nat)) (parts : List (Str × List Str)) (exclude : List Str) (n : Nat) :
    (∃ w, toJson (infoVal counts) = some w ∧ conv E true false (n + 3) w infoTy = .ok (infoVal counts)) ∧
    ∃ w, toJson (splitsVal parts exclude) = some w ∧ conv E true false (n + 4) w splitsTy = .ok (splitsVal parts exclude) := by
  constructor
  · refine ⟨.dict [(.str "shard_counts".toList, .dict (counts.map fun p => (.str p.1, .int p.2)))], ?_, ?_⟩
    · simp only [infoVal, toJson, toJsonFields, toJsonDict_map (fun p : Str × Nat => (Key.str p.1, PVal.int p.2)) (fun a => rfl), Option.map_some]
    · have h1 : mapE (fun kv : Key × PVal => match conv E true false (n + 1) kv.2 .int with
          | .ok v => Except.ok (kv.1, v)
          | .error e => .error e) (counts.map fun p => (Key.str p.1, PVal.int p.2)) =
          .ok (counts.map fun p => (Key.str p.1, PVal.int p.2)) := by
        refine mapE_eq rfl fun p hp => ?_
        rw [List.zip_map, ] at hp
        obtain ⟨q, hq, rfl⟩ := List.mem_map.1 hp
        have : q.1 = q.2 := by
          obtain ⟨i, hi, he⟩ := List.mem_iff_getElem.1 hq
          rw [← he]; simp
        simp [this, conv, guardJson, isInt]
      have h2 : conv E true false (n + 2) (.dict (counts.map fun p => (Key.str p.1, PVal.int p.2))) (.dict .int) =
          .ok (.dict (counts.map fun p => (Key.str p.1, PVal.int p.2))) := by
        exact congrArg (Except.map PVal.dict) h1
      rw [infoTy, conv, infoVal]
      generalize "shard_counts".toList = k
      have h3 : convFields (conv E true false (n + 2)) [(.str k, .dict (counts.map fun p => (Key.str p.1, PVal.int p.2)))] [(k, .dict .int, .none)] =
          .ok [(k, .dict (counts.map fun p => (Key.str p.1, PVal.int p.2)))] := by
        simp only [convFields, mapE, getKey, lookupK, if_true, Option.some_or, h2]
      simp only [h3]
      simp [onlyFields, hE, guardJson]
  · refine ⟨.dict [(.str "split_parts".toList, .dict (parts.map fun p => (.str p.1, .list (p.2.map .str)))),
      (.str "exclude".toList, .list (exclude.map .str))], ?_, ?_⟩
    · have hs : ∀ l : List Str, toJson (.list (l.map .str)) = some (.list (l.map .str)) := by
        intro l
        simp only [toJson, toJsons_map PVal.str (fun a => rfl) l, Option.map_some]
      simp only [splitsVal, toJson, toJsonFields, toJsons_map PVal.str (fun a => rfl),
        toJsonDict_map (fun p : Str × List Str => (Key.str p.1, PVal.list (p.2.map .str))) (fun a => hs a.2), Option.map_some]
    · have hs : ∀ (k : Nat) (l : List Str), conv E true false (k + 2) (.list (l.map .str)) (.list .str) = .ok (.list (l.map .str)) := by
        intro k l
        have : mapE (fun v => conv E true false (k + 1) v .str) (l.map .str) = .ok (l.map .str) := by
          refine mapE_eq rfl fun p hp => ?_
          rw [List.zip_map] at hp
          obtain ⟨q, hq, rfl⟩ := List.mem_map.1 hp
          have : q.1 = q.2 := by
            obtain ⟨i, hi, he⟩ := List.mem_iff_getElem.1 hq
            rw [← he]; simp
          simp [this, conv, guardJson, isStr]
        rw [conv]
        simp only [this, Except.map]
      have h1 : mapE (fun kv : Key × PVal => match conv E true false (n + 2) kv.2 (.list .str) with
          | .ok v => Except.ok (kv.1, v)
          | .error e => .error e) (parts.map fun p => (Key.str p.1, PVal.list (p.2.map .str))) =
          .ok (parts.map fun p => (Key.str p.1, PVal.list (p.2.map .str))) := by
        refine mapE_eq rfl fun p hp => ?_
        rw [List.zip_map] at hp
        obtain ⟨q, hq, rfl⟩ := List.mem_map.1 hp
        have : q.1 = q.2 := by
          obtain ⟨i, hi, he⟩ := List.mem_iff_getElem.1 hq
          rw [← he]; simp
        simp only [Prod.map, this, hs]
      have h2 : conv E true false (n + 3) (.dict (parts.map fun p => (Key.str p.1, PVal.list (p.2.map .str)))) (.dict (.list .str)) =
          .ok (.dict (parts.map fun p => (Key.str p.1, PVal.list (p.2.map .str)))) := by
        exact congrArg (Except.map PVal.dict) h1
      have hne : ¬ (Key.str "split_parts".toList = Key.str "exclude".toList) := by decide
      rw [splitsTy, conv, splitsVal]
      generalize "split_parts".toList = k at hne ⊢
      generalize "exclude".toList = k' at hne ⊢
      have h3 : convFields (conv E true false (n + 3)) [(.str k, .dict (parts.map fun p => (.str p.1, .list (p.2.map .str)))),
          (.str k', .list (exclude.map .str))] [(k, .dict (.list .str), .none), (k', .list .str, some (.list []))] =
          .ok [(k, .dict (parts.map fun p => (.str p.1, .list (p.2.map .str)))), (k', .list (exclude.map .str))] := by
        simp only [convFields, mapE, getKey, lookupK, if_true, if_neg hne, Option.some_or, h2, hs (n + 1)]
      simp only [h3]
      simp [onlyFields, hE, guardJson]

/-- **C74 in full is false of the code**: a tuple of fixed size comes back as a list; a path cannot be written. -/
theorem C74_violated : Conforms exEnv (.tuple [.int 1, .str ['a']]) (.tuple [.int, .str]) ∧
    toJson (.tuple [.int 1, .str ['a']]) = some (.list [.int 1, .str ['a']]) ∧
    (∀ n v, conv exEnv true false n (.list [.int 1, .str ['a']]) (.tuple [.int, .str]) = .ok v → v ≠ .tuple [.int 1, .str ['a']]) ∧
    Conforms exEnv (.path ['x']) .path ∧ toJson (.path ['x']) = .none := by
  refine ⟨.tuple rfl ?_, rfl, ?_, .path _, rfl⟩
  · intro p hp
    simp only [List.zip_cons_cons, List.zip_nil_right, List.mem_cons, List.not_mem_nil, or_false] at hp
    rcases hp with rfl | rfl
    · exact .int _
    · exact .str _
  · intro n v h he
    subst he
    cases n with
    | zero => simp [conv] at h
    | succ n =>
      simp only [conv] at h
      split at h
      · cases h
      · obtain ⟨m, _, hm⟩ := map_eq_ok h
        cases hm

/-- The hypotheses of the round trip hold for a nested value: a dataclass with an optional list. -/
example : Exact (.data ['A'] [(['x'], .none), (['y'], .tuple [.int 1, .int 2])])
    (.data ['A'] [(['x'], .union [.list .str, .none], .none), (['y'], .tupleOf .int, .none)]) := by
  refine .data rfl (by decide) ?_
  intro p hp
  simp only [List.zip_cons_cons, List.zip_nil_right, List.mem_cons, List.not_mem_nil, or_false] at hp
  rcases hp with rfl | rfl
  · exact .later (w := .none) rfl (fun h => by cases h) (.first .none)
  · refine .tupleOf ?_
    intro v hv
    simp only [List.mem_cons, List.not_mem_nil, or_false] at hv
    rcases hv with rfl | rfl <;> exact .int _

end Verif.Config
