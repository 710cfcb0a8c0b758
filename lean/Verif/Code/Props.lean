import Verif.Code.Model
import Verif.Path.Props

/-!
# Property C98: functions from python files
-/

namespace Verif.Code

open Verif.Path

/-! ## Specification -/

/-- The file `p` after the events, if it was `c` before -/
def fileAfter (p : EPath) (c : Option Src) : List Ev → Option Src
  | [] => c
  | .write q c' :: l => fileAfter p (if q = p then c' else c) l
  | .call .. :: l => fileAfter p c l

/-- The string `s` stands for the function `name` of the module `module`: `module:name`, where the name has no colon, or, without any colon, the module alone with
the default name. -/
def Stands (s : Str) (dflt : Option Str) (module name : Str) : Prop :=
  (s = module ++ ':' :: name ∧ ':' ∉ name) ∨ (':' ∉ s ∧ module = s ∧ dflt = some name)

/-- The event asks for a function of the file `q`. -/
def Asks (q : EPath) : Ev → Prop
  | .write .. => False
  | .call fn dflt rel => ∃ module name, Stands fn dflt module name ∧ locate module rel = some q

/-- The file can be evaluated. -/
def Good (q : EPath) (c : Option Src) (src : Src) : Prop := q.path.root ≠ .rel ∧ c = some src ∧ src.raises = false

/-- In the history, starting with the content `c`, the file `q` has the content `src` when it is first asked for while it can be evaluated. -/
inductive FirstGood (q : EPath) : Option Src → List Ev → Src → Prop where
  | now {c : Option Src} {src : Src} {e : Ev} {h : List Ev} : Asks q e → Good q c src → FirstGood q c (e :: h) src
  | later {c : Option Src} {src : Src} {e : Ev} {h : List Ev} : ¬ (Asks q e ∧ ∃ src', Good q c src') → FirstGood q (fileAfter q c [e]) h src →
      FirstGood q c (e :: h) src

/-! ## Strings -/

theorem takeWhile_colon {l a b : Str} (h : l = a ++ ':' :: b) (ha : ':' ∉ a) : l.takeWhile (· ≠ ':') = a ∧ l.dropWhile (· ≠ ':') = ':' :: b := by
  subst h
  induction a with
  | nil => simp
  | cons c a ih =>
    have hc : c ≠ ':' := fun h => ha (h ▸ List.mem_cons_self ..)
    have := ih (fun h => ha (List.mem_cons_of_mem _ h))
    simp [hc] at this ⊢
    exact this

theorem dropWhile_head {l : Str} {c : Char} {m : Str} (h : l.dropWhile (· ≠ ':') = c :: m) : c = ':' := by
  induction l with
  | nil => simp at h
  | cons a l ih =>
    simp only [List.dropWhile_cons] at h
    split at h
    · exact ih h
    · rename_i hn
      cases h
      simpa using hn

theorem rsplit_iff (s m f : Str) : rsplitColon s = some (m, f) ↔ s = m ++ ':' :: f ∧ ':' ∉ f := by
  unfold rsplitColon
  constructor
  · intro h
    split at h
    · cases h
    · rename_i c m' hd
      cases h
      have hc := dropWhile_head hd
      subst hc
      have e := List.takeWhile_append_dropWhile (p := fun c => decide (c ≠ ':')) (l := s.reverse)
      rw [hd] at e
      constructor
      · have := congrArg List.reverse e
        simpa using this.symm
      · intro hm
        have := List.all_eq_true.1 (List.all_takeWhile (p := fun c => decide (c ≠ ':')) (l := s.reverse)) _ (List.mem_reverse.1 hm)
        simp at this
  · rintro ⟨rfl, hf⟩
    have hr : (m ++ ':' :: f).reverse = f.reverse ++ ':' :: m.reverse := by simp
    obtain ⟨h1, h2⟩ := takeWhile_colon hr (by simpa using hf)
    rw [h2, h1]
    simp

theorem rsplit_none (s : Str) : rsplitColon s = none ↔ ':' ∉ s := by
  constructor
  · intro h hm
    unfold rsplitColon at h
    split at h
    · rename_i hd
      have e := List.takeWhile_append_dropWhile (p := fun c => decide (c ≠ ':')) (l := s.reverse)
      rw [hd, List.append_nil] at e
      have := List.all_eq_true.1 (List.all_takeWhile (p := fun c => decide (c ≠ ':')) (l := s.reverse)) ':' (by rw [e]; exact List.mem_reverse.2 hm)
      simp at this
    · cases h
  · intro h
    cases hr : rsplitColon s with
    | none => rfl
    | some x =>
      obtain ⟨m, f⟩ := x
      obtain ⟨rfl, _⟩ := (rsplit_iff s m f).1 hr
      simp at h

theorem splitFn_iff (s : Str) (dflt : Option Str) (m f : Str) : splitFn s dflt = some (m, f) ↔ Stands s dflt m f := by
  unfold splitFn Stands
  cases hr : rsplitColon s with
  | some x =>
    obtain ⟨m', f'⟩ := x
    have h := (rsplit_iff s m' f').1 hr
    have hc : ':' ∈ s := by rw [h.1]; simp
    constructor
    · intro e; cases e; exact Or.inl h
    · rintro (e | ⟨e, _⟩)
      · have := (rsplit_iff s m f).2 e
        rw [hr] at this
        exact this
      · exact absurd hc e
  | none =>
    have h := (rsplit_none s).1 hr
    constructor
    · intro e
      obtain ⟨f', e1, e2⟩ := Option.map_eq_some_iff.1 e
      cases e2
      exact Or.inr ⟨h, rfl, e1⟩
    · rintro (⟨e, _⟩ | ⟨_, rfl, rfl⟩)
      · rw [e] at h; simp at h
      · rfl

/-- **C98, the string**: `module:function`, split at the last colon; without a colon the default name is taken, and without a default it is an error. -/
theorem C98_string (s : Str) (dflt : Option Str) (m f : Str) : splitFn s dflt = some (m, f) ↔ Stands s dflt m f := splitFn_iff s dflt m f

/-! ## One call -/

theorem asks_iff (q : EPath) (fn : Str) (dflt : Option Str) (rel : Option EPath) :
    Asks q (.call fn dflt rel) ↔ ∃ m f, splitFn fn dflt = some (m, f) ∧ locate m rel = some q := by
  unfold Asks
  simp only [splitFn_iff]

theorem isAbs_iff (p : PPath) : p.isAbs = true ↔ p.root ≠ .rel := by
  unfold PPath.isAbs
  simp

theorem loadModule_iff (q : EPath) (s s' : St) : loadModule q s = some s' ↔ ∃ src, Good q (s.disk q) src ∧
    s' = { s with modules := fun p => if p = q then some (s.evals.length, src) else s.modules p, evals := q :: s.evals } := by
  unfold loadModule Good
  by_cases ha : q.path.isAbs = true
  · rw [if_pos ha]
    have ha' := (isAbs_iff _).1 ha
    cases hd : s.disk q with
    | none => simp
    | some src =>
      by_cases hr : src.raises = true
      · simp [hr]
      · have hr' : src.raises = false := by simpa using hr
        dsimp only
        rw [if_neg hr]
        constructor
        · intro h; cases h; exact ⟨src, ⟨ha', rfl, hr'⟩, rfl⟩
        · rintro ⟨src', ⟨_, h, _⟩, rfl⟩; cases h; rfl
  · rw [if_neg ha]
    have : ¬ q.path.root ≠ .rel := fun h => ha ((isAbs_iff _).2 h)
    simp [this]

theorem getItem_iff (q : EPath) (s s' : St) (e : Nat) (src : Src) : getItem q s = some (s', e, src) ↔
    (s.modules q = some (e, src) ∧ s' = s) ∨ (s.modules q = none ∧ Good q (s.disk q) src ∧ e = s.evals.length ∧
      s' = { s with modules := fun p => if p = q then some (s.evals.length, src) else s.modules p, evals := q :: s.evals }) := by
  unfold getItem
  cases hm : s.modules q with
  | some m =>
    obtain ⟨e', src'⟩ := m
    simp only [Option.some.injEq, Prod.mk.injEq]
    constructor
    · rintro ⟨rfl, rfl, rfl⟩; exact Or.inl ⟨⟨rfl, rfl⟩, rfl⟩
    · rintro (⟨⟨rfl, rfl⟩, rfl⟩ | ⟨h, _⟩)
      · exact ⟨rfl, rfl, rfl⟩
      · cases h
  | none =>
    simp only [Option.bind_eq_some_iff, loadModule_iff, Option.map_eq_some_iff]
    constructor
    · rintro ⟨t, ⟨src', hg, rfl⟩, m, h1, h2⟩
      dsimp only at h1
      rw [if_pos rfl] at h1
      cases h1
      cases h2
      exact Or.inr ⟨trivial, hg, rfl, rfl⟩
    · rintro (⟨h, _⟩ | ⟨_, hg, rfl, rfl⟩)
      · cases h
      · exact ⟨_, ⟨src, hg, rfl⟩, _, if_pos rfl, rfl⟩

/-- The effect of one event -/
theorem ev_cases (s : St) (e : Ev) :
    (∀ q, (evStep s e).1.disk q = fileAfter q (s.disk q) [e]) ∧
    (((evStep s e).1.modules = s.modules ∧ (evStep s e).1.evals = s.evals ∧ ∀ q, Asks q e → s.modules q = none → ∀ src, ¬ Good q (s.disk q) src) ∨
      ∃ q src, Asks q e ∧ (∀ q', Asks q' e → q' = q) ∧ s.modules q = none ∧ Good q (s.disk q) src ∧
        (evStep s e).1.modules = (fun p => if p = q then some (s.evals.length, src) else s.modules p) ∧ (evStep s e).1.evals = q :: s.evals) := by
  cases e with
  | write p c =>
    refine ⟨fun q => ?_, Or.inl ⟨rfl, rfl, fun q h => h.elim⟩⟩
    show (if q = p then c else s.disk q) = if p = q then c else s.disk q
    by_cases h : q = p
    · rw [if_pos h, if_pos h.symm]
    · rw [if_neg h, if_neg (Ne.symm h)]
  | call fn dflt rel =>
    unfold evStep getFunction
    dsimp only
    cases h1 : splitFn fn dflt with
    | none =>
      refine ⟨fun q => rfl, Or.inl ⟨rfl, rfl, fun q ha => ?_⟩⟩
      obtain ⟨m, f, h, _⟩ := (asks_iff ..).1 ha
      rw [h1] at h; cases h
    | some mf =>
      obtain ⟨m, f⟩ := mf
      dsimp only
      cases h2 : locate m rel with
      | none =>
        refine ⟨fun q => rfl, Or.inl ⟨rfl, rfl, fun q ha => ?_⟩⟩
        obtain ⟨m', f', h, h'⟩ := (asks_iff ..).1 ha
        rw [h1] at h; cases h; rw [h2] at h'; cases h'
      | some q =>
        have hu : ∀ q', Asks q' (.call fn dflt rel) → q' = q := fun q' ha => by
          obtain ⟨m', f', h, h'⟩ := (asks_iff ..).1 ha
          rw [h1] at h; cases h; rw [h2] at h'; cases h'; rfl
        dsimp only
        cases h3 : getItem q s with
        | none =>
          refine ⟨fun q => rfl, Or.inl ⟨rfl, rfl, fun q' ha hm src hg => ?_⟩⟩
          cases hu q' ha
          have := (getItem_iff q s _ _ _).2 (Or.inr ⟨hm, hg, rfl, rfl⟩)
          rw [h3] at this; cases this
        | some x =>
          obtain ⟨s', n, src⟩ := x
          dsimp only
          rcases (getItem_iff q s s' n src).1 h3 with ⟨hm, rfl⟩ | ⟨hm, hg, rfl, rfl⟩
          · refine ⟨fun q => rfl, Or.inl ⟨rfl, rfl, fun q' ha hm' => ?_⟩⟩
            cases hu q' ha
            rw [hm] at hm'; cases hm'
          · exact ⟨fun q => rfl, Or.inr ⟨q, src, (asks_iff ..).2 ⟨m, f, h1, h2⟩, hu, hm, hg, rfl, rfl⟩⟩

/-- What a call returns -/
theorem call_returns (s : St) (fn : Str) (dflt : Option Str) (rel : Option EPath) (x : Fn) :
    (evStep s (.call fn dflt rel)).2 = some x ↔ ∃ m src, splitFn fn dflt = some (m, x.name) ∧ locate m rel = some x.path ∧
      (evStep s (.call fn dflt rel)).1.modules x.path = some (x.eval, src) ∧ src.vars x.name = some true := by
  unfold evStep getFunction
  dsimp only
  cases h1 : splitFn fn dflt with
  | none => simp
  | some mf =>
    obtain ⟨m, f⟩ := mf
    dsimp only
    cases h2 : locate m rel with
    | none =>
      simp only [reduceCtorEq, false_iff]
      rintro ⟨m', src, h, h', _⟩
      cases h; rw [h2] at h'; cases h'
    | some q =>
      dsimp only
      cases h3 : getItem q s with
      | none =>
        simp only [reduceCtorEq, false_iff]
        rintro ⟨m', src, h, h', h4, _⟩
        cases h; rw [h2] at h'; cases h'
        have := (getItem_iff x.path s _ _ _).2 (Or.inl ⟨h4, rfl⟩)
        rw [h3] at this; cases this
      | some y =>
        obtain ⟨s', n, src⟩ := y
        dsimp only
        have hm : s'.modules q = some (n, src) := by
          rcases (getItem_iff q s s' n src).1 h3 with ⟨hm, rfl⟩ | ⟨hm, hg, rfl, rfl⟩
          · exact hm
          · exact if_pos rfl
        constructor
        · intro h
          split at h
          · rename_i hv
            cases h
            exact ⟨m, src, rfl, h2, hm, hv⟩
          · cases h
        · rintro ⟨m', src', h, h', h4, h5⟩
          simp only [Option.some.injEq, Prod.mk.injEq] at h
          obtain ⟨rfl, rfl⟩ := h
          rw [h2] at h'
          cases h'
          rw [hm] at h4
          cases h4
          rw [if_pos h5]

/-! ## Histories -/

theorem fileAfter_cons (q : EPath) (c : Option Src) (e : Ev) (h : List Ev) : fileAfter q c (e :: h) = fileAfter q (fileAfter q c [e]) h := by
  cases e <;> rfl

theorem run_disk (q : EPath) : ∀ (h : List Ev) (s : St), (run s h).1.disk q = fileAfter q (s.disk q) h
  | [], s => rfl
  | e :: h, s => by
    rw [fileAfter_cons, ← (ev_cases s e).1 q]
    exact run_disk q h _

theorem run_loaded (q : EPath) (m : Nat × Src) : ∀ (h : List Ev) (s : St), s.modules q = some m → (run s h).1.modules q = some m
  | [], s, hm => hm
  | e :: h, s, hm => by
    refine run_loaded q m h _ ?_
    rcases (ev_cases s e).2 with ⟨h1, _⟩ | ⟨q', src, _, _, h2, _, h1, _⟩
    · rw [h1]; exact hm
    · rw [h1]
      show (if q = q' then _ else _) = _
      rw [if_neg]
      · exact hm
      · rintro rfl; rw [hm] at h2; cases h2

theorem run_modules (q : EPath) (src : Src) : ∀ (h : List Ev) (s : St), s.modules q = none →
    ((∃ e, (run s h).1.modules q = some (e, src)) ↔ FirstGood q (s.disk q) h src)
  | [], s, hm => by
    constructor
    · rintro ⟨e, h⟩; rw [show (run s []).1 = s from rfl, hm] at h; cases h
    · intro h; cases h
  | e :: h, s, hm => by
    obtain ⟨hd, hc⟩ := ev_cases s e
    by_cases hg : Asks q e ∧ ∃ src', Good q (s.disk q) src'
    · obtain ⟨ha, src', hg⟩ := hg
      have hl : (evStep s e).1.modules q = some (s.evals.length, src') := by
        rcases hc with ⟨_, _, h3⟩ | ⟨q', src'', ha', hu, h2, hg', h1, _⟩
        · exact absurd hg (h3 q ha hm src')
        · cases hu q ha
          have : src' = src'' := by
            have := hg.2.1.symm.trans hg'.2.1
            cases this; rfl
          subst this
          rw [h1]; exact if_pos rfl
      have hr := run_loaded q _ h _ hl
      constructor
      · rintro ⟨n, h'⟩
        have h' : (run (evStep s e).1 h).1.modules q = _ := h'
        rw [hr] at h'
        cases h'
        exact .now ha hg
      · intro hf
        cases hf with
        | now _ hg' =>
          have := hg.2.1.symm.trans hg'.2.1
          cases this
          exact ⟨_, hr⟩
        | later hn _ => exact absurd ⟨ha, src', hg⟩ hn
    · have hl : (evStep s e).1.modules q = none := by
        rcases hc with ⟨h1, _⟩ | ⟨q', src'', ha', hu, h2, hg', h1, _⟩
        · rw [h1]; exact hm
        · rw [h1]
          show (if q = q' then _ else _) = _
          rw [if_neg]
          · exact hm
          · rintro rfl; exact hg ⟨ha', src'', hg'⟩
      have ih := run_modules q src h _ hl
      rw [hd q] at ih
      refine Iff.trans ih ⟨fun hf => .later hg hf, fun hf => ?_⟩
      cases hf with
      | now ha hg' => exact absurd ⟨ha, _, hg'⟩ hg
      | later _ hf => exact hf

/-- A process that has just been started -/
def St.start (d : EPath → Option Src) : St := { disk := d }

theorem run_append (s : St) : ∀ (h : List Ev) (e : Ev), run s (h ++ [e]) = ((evStep (run s h).1 e).1, (run s h).2 ++ [(evStep (run s h).1 e).2]) := by
  intro h e
  induction h generalizing s with
  | nil => rfl
  | cons a h ih =>
    show ((run (evStep s a).1 (h ++ [e])).1, _ :: (run (evStep s a).1 (h ++ [e])).2) = _
    rw [ih]
    rfl

/-- **C98, which function**: after any history, with changes of the files, a call returns a function exactly if its string stands for a module and a name, and
the file, as it was when it was first asked for and could be evaluated, defines something callable of this name. -/
theorem C98_function (d : EPath → Option Src) (h : List Ev) (fn : Str) (dflt : Option Str) (rel : Option EPath) (q : EPath) (name : Str) :
    (∃ n, (run (.start d) (h ++ [.call fn dflt rel])).2.getLast? = some (some ⟨q, n, name⟩)) ↔
      ∃ module src, Stands fn dflt module name ∧ locate module rel = some q ∧ FirstGood q (d q) (h ++ [.call fn dflt rel]) src ∧
        src.vars name = some true := by
  have hm := fun src => run_modules q src (h ++ [.call fn dflt rel]) (.start d) rfl
  rw [run_append] at hm ⊢
  simp only [List.getLast?_append, List.getLast?_singleton, Option.some_or, Option.some.injEq, call_returns, splitFn_iff]
  constructor
  · rintro ⟨n, m, src, h1, h2, h3, h4⟩
    exact ⟨m, src, h1, h2, (hm src).1 ⟨n, h3⟩, h4⟩
  · rintro ⟨m, src, h1, h2, h3, h4⟩
    obtain ⟨n, h3⟩ := (hm src).2 h3
    exact ⟨n, m, src, h1, h2, h3, h4⟩

/-! ## Evaluations -/

structure Inv (s : St) : Prop where
  nodup : s.evals.Nodup
  mem : ∀ q, q ∈ s.evals ↔ s.modules q ≠ none
  num : ∀ q e src, s.modules q = some (e, src) → s.evals.reverse[e]? = some q

theorem Inv.start (d : EPath → Option Src) : Inv (.start d) :=
  ⟨List.nodup_nil, fun q => by simp [St.start], fun q e src h => by cases h⟩

theorem Inv.step {s : St} (h : Inv s) (e : Ev) : Inv (evStep s e).1 := by
  rcases (ev_cases s e).2 with ⟨h1, h2, _⟩ | ⟨q, src, _, _, h2, _, h1, h3⟩
  · exact ⟨by rw [h2]; exact h.nodup, fun q => by rw [h1, h2]; exact h.mem q, fun q e src => by rw [h1, h2]; exact h.num q e src⟩
  · refine ⟨?_, fun p => ?_, fun p n src' => ?_⟩
    · rw [h3]
      exact List.nodup_cons.2 ⟨fun hm => (h.mem q).1 hm h2, h.nodup⟩
    · rw [h1, h3]
      show _ ↔ (if p = q then _ else _) ≠ none
      by_cases hp : p = q
      · rw [if_pos hp, hp]; simp
      · rw [if_neg hp, ← h.mem p]; simp [hp]
    · rw [h1, h3]
      show (if p = q then _ else _) = _ → _
      intro hp
      rw [List.reverse_cons]
      by_cases hq : p = q
      · rw [if_pos hq] at hp
        simp only [Option.some.injEq, Prod.mk.injEq] at hp
        rw [← hp.1, List.getElem?_append_right (by simp)]
        simp [hq]
      · rw [if_neg hq] at hp
        have := h.num p n src' hp
        rw [List.getElem?_append_left (by obtain ⟨hl, _⟩ := List.getElem?_eq_some_iff.1 this; exact hl)]
        exact this

theorem Inv.run {s : St} (hi : Inv s) : ∀ h : List Ev, Inv (run s h).1
  | [] => hi
  | e :: h => Inv.run (hi.step e) h

/-- Every function that is returned belongs to a module that stays. -/
theorem returned_loaded (x : Fn) : ∀ (h : List Ev) (s : St), some x ∈ (run s h).2 → ∃ src, (run s h).1.modules x.path = some (x.eval, src) ∧ src.vars x.name = some true
  | [], s, hx => by cases hx
  | e :: h, s, hx => by
    rcases List.mem_cons.1 hx with hx | hx
    · cases e with
      | write => cases hx
      | call fn dflt rel =>
        obtain ⟨m, src, _, _, h3, h4⟩ := (call_returns s fn dflt rel x).1 hx.symm
        exact ⟨src, run_loaded _ _ h _ h3, h4⟩
    · exact returned_loaded x h _ hx

/-- **C98, once**: in any history each file is evaluated at most once without an exception. -/
theorem C98_once (d : EPath → Option Src) (h : List Ev) : (run (.start d) h).1.evals.Nodup := ((Inv.start d).run h).nodup

/-- **C98, one module**: two functions that are returned in a history come from the same evaluation exactly if they come from the same file; so, from one file,
the same name is always the same function object. -/
theorem C98_same (d : EPath → Option Src) (h : List Ev) {f g : Fn} (hf : some f ∈ (run (.start d) h).2) (hg : some g ∈ (run (.start d) h).2) :
    (f.eval = g.eval ↔ f.path = g.path) ∧ (f.path = g.path → f.name = g.name → f = g) := by
  obtain ⟨a, ha, _⟩ := returned_loaded f h _ hf
  obtain ⟨b, hb, _⟩ := returned_loaded g h _ hg
  have hi := (Inv.start d).run h
  have h1 : f.path = g.path → f.eval = g.eval := fun hp => by
    rw [hp, hb] at ha
    simp only [Option.some.injEq, Prod.mk.injEq] at ha
    exact ha.1.symm
  refine ⟨⟨fun he => ?_, h1⟩, fun hp hn => ?_⟩
  · have h2 := hi.num _ _ _ ha
    have h3 := hi.num _ _ _ hb
    rw [he, h3] at h2
    exact (Option.some.inj h2).symm
  · obtain ⟨p, e, n⟩ := f
    obtain ⟨p', e', n'⟩ := g
    simp only at hp hn h1
    rw [hp, hn, h1 hp]

/-! ## Where the files are -/

theorem reaches_wf {d l e : List Str} (h : Reaches d l e) (hd : ∀ w ∈ d, Name w) (hl : ∀ w ∈ l, Name w) : ∀ w ∈ e, Name w := by
  induction h with
  | here d => exact hd
  | up d x l e h ih => exact ih (fun w hw => hd w (List.mem_append_left _ hw)) (fun w hw => hl w (List.mem_cons_of_mem _ hw))
  | down d v l e hv h ih =>
    refine ih (fun w hw => ?_) (fun w hw => hl w (List.mem_cons_of_mem _ hw))
    rcases List.mem_append.1 hw with hw | hw
    · exact hd w hw
    · rw [List.mem_singleton.1 hw]; exact hl v (List.mem_cons_self ..)

/-- **C98, relative modules**: with `relative_path`, a relative module is looked up there, also on a remote: following the names of the module from that directory,
`..` going up. -/
theorem C98_relative {dir : EPath} (hd : dir.path.Normal) (hc : dir.Consistent) (hw : dir.path.WF) {m : Str} (hp : splitProtocol m = none)
    (hr : (parse m).root = .rel) (hk : ∀ k, ups ((parse m).names.take k) ≤ dir.inside.length + downs ((parse m).names.take k)) :
    ∃ q, locate m (some dir) = some q ∧ q.fs = dir.fs ∧ q.path.root = .one ∧ Reaches dir.path.names (parse m).names q.path.names := by
  have hs : EPath.ofStr m = some ⟨parse m, .loc⟩ := by unfold EPath.ofStr; rw [hp]
  have hle : dir.inside.length ≤ dir.path.names.length := by
    unfold EPath.inside
    split
    · exact Nat.le_refl _
    · rw [List.length_drop]; omega
  obtain ⟨e, he⟩ := reaches_iff_count.2 fun k => Nat.le_trans (hk k) (Nat.add_le_add_right hle _)
  have hq := (C48_from hd (b := ⟨parse m, .loc⟩) hr ⟨⟨.one, e⟩, dir.fs⟩).2 ⟨rfl, rfl, he⟩
  have hcq := C48_remote_partial hd hc (b := ⟨parse m, .loc⟩) hr hq hk
  have hwq : PPath.WF ⟨.one, e⟩ := reaches_wf he hw (parse_wf m)
  refine ⟨⟨⟨.one, e⟩, dir.fs⟩, ?_, rfl, rfl, he⟩
  unfold locate EPath.divStr
  dsimp only
  rw [hs, Option.bind_some, hq, Option.bind_some]
  unfold strOf
  rw [if_pos ((isAbs_iff _).2 (by simp))]
  exact C61_url hwq hcq

/-- **C98, absolute modules**: an absolute path, local or remote, is used as it is. -/
theorem C98_absolute {m : Str} {q : EPath} (hm : EPath.ofStr m = some q) (ha : q.path.root ≠ .rel) (rel : Option EPath)
    (hr : ∀ d, rel = some d → d.path.root ≠ .rel) : locate m rel = some q := by
  unfold locate
  cases rel with
  | none => exact hm
  | some d =>
    unfold EPath.divStr
    dsimp only
    rw [hm, Option.bind_some, C48_absolute (hr d rfl) ha, Option.bind_some]
    unfold strOf
    rw [if_pos ((isAbs_iff _).2 ha)]
    exact C61_url (ofStr_ok hm).1 (ofStr_ok hm).2

theorem reaches_down {d l : List Str} (hn : "..".toList ∉ l) : Reaches d l (d ++ l) := by
  induction l generalizing d with
  | nil => rw [List.append_nil]; exact .here d
  | cons w l ih =>
    refine .down _ _ _ _ (fun h => hn (h ▸ List.mem_cons_self ..)) ?_
    have := ih (d := d ++ [w]) (fun h => hn (List.mem_cons_of_mem _ h))
    simpa using this

theorem nvMeta {path : EPath} (hp : path.path.Normal) : path.divStr ".nv-meta".toList = some ⟨⟨.one, path.path.names ++ [".nv-meta".toList]⟩, path.fs⟩ := by
  unfold EPath.divStr
  have hs : EPath.ofStr ".nv-meta".toList = some ⟨⟨.rel, [".nv-meta".toList]⟩, .loc⟩ := by decide
  rw [hs, Option.bind_some]
  exact C48_down hp rfl (by decide)

theorem locate_below {dir : EPath} (hd : dir.path.Normal) (hc : dir.Consistent) (hw : dir.path.WF) {m : Str} (hp : splitProtocol m = none)
    (hr : (parse m).root = .rel) (hn : "..".toList ∉ (parse m).names) :
    locate m (some dir) = some ⟨⟨.one, dir.path.names ++ (parse m).names⟩, dir.fs⟩ := by
  obtain ⟨q, h1, h2, h3, h4⟩ := C98_relative hd hc hw hp hr fun k => by
    have : ups ((parse m).names.take k) = 0 := by
      unfold ups
      rw [List.countP_eq_zero]
      intro w hw
      have := List.mem_of_mem_take hw
      simp only [decide_eq_true_eq]
      rintro rfl
      exact hn this
    omega
  rw [h1]
  obtain ⟨⟨r, l⟩, f⟩ := q
  simp only at h2 h3 h4
  have := resolveLoop_reaches.2 h4
  rw [resolveLoop_reaches.2 (reaches_down hn)] at this
  cases this
  rw [h2, h3]

/-- **C98, datasets**: sample loader and part filter of the dataset at `path`, given as `module:function`, are looked up in its `.nv-meta` directory, local or remote. -/
theorem C98_dataset {path : EPath} (hp : path.path.Normal) (hc : path.Consistent) (hw : path.path.WF) {m f m' f' : Str}
    (hm : splitProtocol m = none) (hr : (parse m).root = .rel) (hn : "..".toList ∉ (parse m).names) (hf : ':' ∉ f)
    (hm' : splitProtocol m' = none) (hr' : (parse m').root = .rel) (hn' : "..".toList ∉ (parse m').names) (hf' : ':' ∉ f') :
    ∃ e e', datasetFunctions path (m ++ ':' :: f) (m' ++ ':' :: f') = [e, e']
      ∧ Asks ⟨⟨.one, path.path.names ++ ".nv-meta".toList :: (parse m).names⟩, path.fs⟩ e
      ∧ Asks ⟨⟨.one, path.path.names ++ ".nv-meta".toList :: (parse m').names⟩, path.fs⟩ e' := by
  have hd : (⟨.one, path.path.names ++ [".nv-meta".toList]⟩ : PPath).Normal :=
    ⟨rfl, fun h => by
      rcases List.mem_append.1 h with h | h
      · exact hp.2 h
      · exact absurd (List.mem_singleton.1 h) (by decide)⟩
  have hwd : (⟨.one, path.path.names ++ [".nv-meta".toList]⟩ : PPath).WF := fun w h => by
    rcases List.mem_append.1 h with h | h
    · exact hw w h
    · rw [List.mem_singleton.1 h]; exact ⟨by decide, by decide, by decide⟩
  have hcd : (⟨⟨.one, path.path.names ++ [".nv-meta".toList]⟩, path.fs⟩ : EPath).Consistent := by
    unfold EPath.Consistent at hc ⊢
    dsimp only
    cases hfs : path.fs with
    | loc => trivial
    | rclone r =>
      rw [hfs] at hc
      refine ⟨hd, ?_⟩
      obtain ⟨_, h⟩ := hc
      rw [List.head?_append, h]
      rfl
  have key : ∀ {m : Str}, splitProtocol m = none → (parse m).root = .rel → "..".toList ∉ (parse m).names →
      locate m (some ⟨⟨.one, path.path.names ++ [".nv-meta".toList]⟩, path.fs⟩) =
        some ⟨⟨.one, path.path.names ++ ".nv-meta".toList :: (parse m).names⟩, path.fs⟩ := fun h1 h2 h3 => by
    rw [locate_below (dir := ⟨⟨.one, path.path.names ++ [".nv-meta".toList]⟩, path.fs⟩) hd hcd hwd h1 h2 h3]
    simp
  unfold datasetFunctions
  rw [nvMeta hp]
  exact ⟨_, _, rfl, ⟨m, f, Or.inl ⟨rfl, hf⟩, key hm hr hn⟩, ⟨m', f', Or.inl ⟨rfl, hf'⟩, key hm' hr' hn'⟩⟩

/-! ## What does not hold -/

/-- **C98 does not hold without `relative_path`**: a relative module is then not looked up in the current directory, as documented, but always an error,
whatever the files are. -/
theorem C98_violated_cwd (s : St) {fn m f : Str} {dflt : Option Str} (hs : Stands fn dflt m f) (hp : splitProtocol m = none) (hr : (parse m).root = .rel)
    (hm : ∀ q, q.path.root = .rel → s.modules q = none) : getFunction fn dflt none s = (s, none) := by
  have hl : locate m none = some ⟨parse m, .loc⟩ := by
    show EPath.ofStr m = _
    unfold EPath.ofStr
    rw [hp]
  have hg : getItem ⟨parse m, .loc⟩ s = none := by
    cases h : getItem ⟨parse m, .loc⟩ s with
    | none => rfl
    | some x =>
      obtain ⟨s', e, src⟩ := x
      rcases (getItem_iff ..).1 h with ⟨h1, _⟩ | ⟨_, h1, _⟩
      · rw [hm _ hr] at h1; cases h1
      · exact absurd hr h1.1
  unfold getFunction
  rw [(splitFn_iff ..).2 hs]
  dsimp only
  rw [hl]
  dsimp only
  rw [hg]

/-- Relative paths never get into the modules: the hypothesis of `C98_violated_cwd` holds in all reachable states. -/
theorem modules_absolute (d : EPath → Option Src) (h : List Ev) (q : EPath) (hq : q.path.root = .rel) : (run (.start d) h).1.modules q = none := by
  cases hm : (run (.start d) h).1.modules q with
  | none => rfl
  | some m =>
    obtain ⟨e, src⟩ := m
    have := (run_modules q src h (.start d) rfl).1 ⟨e, hm⟩
    clear hm
    generalize (St.start d).disk q = c at this
    induction this with
    | now _ hg => exact absurd hq hg.1
    | later _ _ ih => exact ih

/-- **C98 does not hold for remote files without a function name**: although a default name is given, the string is split at the colon of `rclone://`. -/
theorem C98_violated_protocol (path : Str) (hc : ':' ∉ path) (dflt m f : Str) :
    Stands ("rclone://".toList ++ path) (some dflt) m f → m = "rclone".toList ∧ f = "//".toList ++ path := by
  intro h
  have h1 := (splitFn_iff _ _ _ _).2 h
  have h2 := (splitFn_iff ("rclone://".toList ++ path) (some dflt) "rclone".toList ("//".toList ++ path)).2
    (Or.inl ⟨rfl, by
      intro hm
      rcases List.mem_append.1 hm with hm | hm
      · revert hm; decide
      · exact hc hm⟩)
  rw [h1] at h2
  cases h2
  exact ⟨rfl, rfl⟩

/-! ## Examples -/

def exDir : EPath := ⟨⟨.one, ["r".toList, "ds".toList]⟩, .rclone "r".toList⟩
def exFile : EPath := ⟨⟨.one, ["r".toList, "ds".toList, ".nv-meta".toList, "code.py".toList]⟩, .rclone "r".toList⟩
def exSrc (name : Str) : Src := { vars := fun v => if v = name then some true else if v = "n".toList then some false else none }
def exDisk : EPath → Option Src := fun p => if p = exFile then some (exSrc "load".toList) else none

/-- The file is changed between two datasets using it: the first content is used. An error, and a variable that is no function -/
def exHistory : List Ev :=
  datasetFunctions exDir "code.py:load".toList "other.py:x".toList ++ .write exFile (some (exSrc "new".toList)) ::
    datasetFunctions exDir "code.py:load".toList "code.py:new".toList

example : (run (.start exDisk) exHistory).2 =
    [some ⟨exFile, 0, "load".toList⟩, none, none, some ⟨exFile, 0, "load".toList⟩, none] := by decide +kernel
example : exDir.path.Normal ∧ exDir.Consistent ∧ splitProtocol "code.py".toList = none ∧ (parse "code.py".toList).root = .rel
    ∧ "..".toList ∉ (parse "code.py".toList).names := ⟨⟨rfl, by decide⟩, ⟨⟨rfl, by decide⟩, rfl⟩, by decide, by decide, by decide⟩

/-- A file that cannot be evaluated at first is evaluated later. -/
example : (run (.start fun p => if p = exFile then some { raises := true, vars := fun _ => none } else none)
    (datasetFunctions exDir "code.py:load".toList "code.py:new".toList ++ .write exFile (some (exSrc "new".toList)) ::
      datasetFunctions exDir "code.py:load".toList "code.py:new".toList)).2 =
    [none, none, none, none, some ⟨exFile, 0, "new".toList⟩] := by decide +kernel

end Verif.Code
