import Verif.Config.OverrideValue
import Mathlib.Data.List.Nodup

/-! # C110: overriding configuration values -/

namespace Verif.Config

variable {E : Env} {X : Texts}

/-! ## The results are of the annotated types -/

theorem built_mono {a b : Ty → Prop} (h : ∀ t, a t → b t) {T : Ty} (hT : Built X a T) : Built X b T := by
  induction hT with
  | leaf hl => exact .leaf (h _ hl)
  | union _ ih => exact .union ih
  | named h1 h2 h3 _ ih => exact .named h1 h2 h3 ih
  | data h1 h2 h3 _ ih => exact .data h1 h2 h3 ih
  | list _ ih => exact .list ih
  | tupleOf _ ih => exact .tupleOf ih

theorem sure_leaf {t : Ty} (h : Sure t) : Leaf t := by
  cases h with
  | prim h => exact .prim h
  | literal l => exact .literal l
  | path => exact .path

theorem sure_obj {T : Ty} (hT : Built X Sure T) {c : Str} {args : List (Str × PVal)} : ¬ Conforms E (.obj c args) T := by
  induction hT with
  | leaf hl =>
    intro h
    cases hl with
    | prim hp => cases hp <;> cases h
    | literal l =>
      cases h with
      | literal _ h2 => simp [litEq] at h2
    | path => cases h
  | union hts ih =>
    intro h
    cases h with
    | union ht hc => exact ih _ ht hc
  | _ => intro h; cases h

theorem unionText_conforms {s : Str} {ts : List Ty} {v : PVal} (h : unionText X s ts = some (.ok v)) : ∃ t ∈ ts, Conforms E v t := by
  have hint : ∀ (ts' : List Ty), toInt X s = .ok v → ∃ t ∈ Ty.int :: ts', Conforms E v t := by
    intro ts' h
    unfold toInt orOther at h
    cases hx : X.int s with
    | none => rw [hx] at h; cases h
    | some i => rw [hx] at h; cases h; exact ⟨.int, List.mem_cons_self .., .int _⟩
  have hfl : ∀ (ts' : List Ty), toFloat X s = .ok v → ∃ t ∈ Ty.float :: ts', Conforms E v t := by
    intro ts' h
    unfold toFloat orOther at h
    cases hx : X.float s with
    | none => rw [hx] at h; cases h
    | some i => rw [hx] at h; cases h; exact ⟨.float, List.mem_cons_self .., .float _ _⟩
  induction ts with
  | nil => cases h
  | cons t ts ih =>
    have later : unionText X s ts = some (.ok v) → ∃ t' ∈ t :: ts, Conforms E v t' := by
      intro h
      obtain ⟨t', ht', hc⟩ := ih h
      exact ⟨t', List.mem_cons_of_mem _ ht', hc⟩
    cases t with
    | bool =>
      simp only [unionText] at h
      split at h
      · cases h; exact ⟨_, List.mem_cons_self .., .bool _⟩
      · split at h
        · cases h; exact ⟨_, List.mem_cons_self .., .bool _⟩
        · exact later h
    | int =>
      simp only [unionText] at h
      split at h
      · exact hint ts (Option.some.inj h)
      · exact later h
    | str => simp only [unionText] at h; cases h; exact ⟨_, List.mem_cons_self .., .str _⟩
    | float =>
      simp only [unionText] at h
      split at h
      · exact hfl ts (Option.some.inj h)
      · exact later h
    | _ => simp only [unionText] at h; exact later h

theorem fromText_ok {cv : PVal → Res PVal} {s : Str} {r : PVal} (h : fromText X cv s = .ok r) : ∃ raw, X.json s = some raw ∧ cv raw = .ok r := by
  unfold fromText at h
  cases hx : X.json s with
  | none => rw [hx] at h; cases h
  | some raw => rw [hx] at h; exact ⟨raw, rfl, h⟩

theorem lookup_zip {kw : List (Str × PVal)} {fields : List (Str × Ty × Option PVal)} (h : kw.map (·.1) = fields.map (·.1))
    (hn : (fields.map (·.1)).Nodup) {p : (Str × PVal) × (Str × Ty × Option PVal)} (hp : p ∈ kw.zip fields) :
    p.2 ∈ fields ∧ kw.lookup p.2.1 = some p.1.2 := by
  refine ⟨(List.of_mem_zip (a := p.1) (b := p.2) hp).2, ?_⟩
  induction kw generalizing fields with
  | nil => simp at hp
  | cons a kw ih =>
    cases fields with
    | nil => simp at hp
    | cons g fields =>
      simp only [List.map_cons, List.cons.injEq] at h
      simp only [List.map_cons, List.nodup_cons] at hn
      simp only [List.zip_cons_cons, List.mem_cons] at hp
      rcases hp with rfl | hp
      · simp [List.lookup, ← h.1]
      · have hm : p.2 ∈ fields := (List.of_mem_zip (a := p.1) (b := p.2) hp).2
        have hne : p.2.1 ≠ a.1 := fun e => hn.1 (by rw [← h.1, ← e]; exact List.mem_map.2 ⟨_, hm, rfl⟩)
        simp only [List.lookup, beq_eq_false_iff_ne.2 hne]
        exact ih h.2 hn.2 hp

theorem ovr_conforms (hsub : ∀ a b, E.isSub a b = true → a = b) (hjson : ∀ s raw, X.json s = some raw → StrKeys raw) {strict imports : Bool} (n : Nat)
    (v o : PVal) (T : Ty) (r : PVal) (hT : Built X Sure T) (hc : Checked T) (hv : Conforms E v T) (h : ovr E X strict imports n v o (.ty T) = .ok r) :
    Conforms E r T := by
  induction n generalizing v o T r with
  | zero => simp [ovr] at h
  | succ n ih =>
    have text : ∀ (t : Ty) (s : Str), Checked t → fromText X (fun raw => conv E strict imports n raw t) s = .ok r → Conforms E r t := by
      intro t s ht hf
      obtain ⟨raw, h1, h2⟩ := fromText_ok hf
      exact conv_conforms n raw t r (hjson _ _ h1) ht h2
    have recordCase : ∀ (d : List (Key × PVal)) (c : Str) (fields : List (Str × Ty × Option PVal)) (make : List (Str × PVal) → PVal) (fs : List (Str × PVal)),
        (∀ k, attr v k = fs.lookup k) → fs.map (·.1) = fields.map (·.1) →
        (∀ p ∈ fs.zip fields, Conforms E p.1.2 p.2.2.1) → (fields.map (·.1)).Nodup → (∀ f ∈ fields, Built X Sure f.2.1) → (∀ f ∈ fields, Checked f.2.1) →
        ovrRecord E (fun old o t => ovr E X strict imports n old o (.ty t)) strict v d c fields make = .ok r →
        ∃ kw, r = make kw ∧ kw.map (·.1) = fields.map (·.1) ∧ ∀ p ∈ kw.zip fields, Conforms E p.1.2 p.2.2.1 := by
      intro d c fields make fs ha hfs hconf hn hb hck hr
      obtain ⟨l, l', kw, h1, h2, h3, rfl⟩ := ovrRecord_ok hr
      obtain ⟨k1, k2⟩ := ovrFields_at h3 hn
      refine ⟨kw, rfl, k1, ?_⟩
      intro p hp
      obtain ⟨hm, hl⟩ := lookup_zip k1 hn hp
      obtain ⟨old, r', a1, a2, a3⟩ := k2 _ hm
      rw [ha] at a1
      rw [hl] at a2
      cases a2
      have hco := hconf _ (mem_zip_fields hfs hn hm a1)
      cases hg : getKey l' p.2.1 with
      | none => rw [hg] at a3; rw [a3]; exact hco
      | some w => rw [hg] at a3; exact ih old w p.2.2.1 _ (hb _ hm) (hck _ hm) hco a3
    have elemsCase : ∀ (d : List (Key × PVal)) (t : Ty) (make : List PVal → PVal) (xs0 : List PVal), elems v = some xs0 → Built X Sure t → Checked t →
        (∀ x ∈ xs0, Conforms E x t) → ovrList X (fun old o => ovr E X strict imports n old o (.ty t)) .none v d make = .ok r →
        ∃ ys, r = make ys ∧ ∀ y ∈ ys, Conforms E y t := by
      intro d t make xs0 he hb hck hco hl
      obtain ⟨l, li, xs, ys, h1, h2, h3, h4, h5, _, h7⟩ := ovrList_ok hl
      rw [he] at h3
      cases h3
      refine ⟨ys, h4, ?_⟩
      intro y hy
      obtain ⟨i, hi, rfl⟩ := List.mem_iff_getElem.1 hy
      have e1 : xs0[i]? = some (xs0[i]'(by omega)) := List.getElem?_eq_getElem (by omega)
      have e2 : ys[i]? = some ys[i] := List.getElem?_eq_getElem hi
      have := h7 _ _ _ e1 e2
      cases ha : atIndex li i with
      | none => rw [ha] at this; rw [this]; exact hco _ (List.getElem_mem _)
      | some w => rw [ha] at this; exact ih _ w t _ hb hck (hco _ (List.getElem_mem _)) this
    cases hT with
    | leaf hl =>
      cases hl with
      | prim hp =>
        cases hp with
        | str =>
          simp only [ovr] at h
          obtain ⟨h1, rfl⟩ := guardJson_ok.1 h
          cases o <;> simp [isStr] at h1
          exact .str _
        | int =>
          simp only [ovr, ovrInt] at h
          split at h
          · unfold toInt orOther at h
            rename_i s
            cases hx : X.int s with
            | none => rw [hx] at h; cases h
            | some i => rw [hx] at h; cases h; exact .int _
          · obtain ⟨h1, rfl⟩ := guardJson_ok.1 h
            cases o <;> simp [isInt] at h1
            · exact .intBool _
            · exact .int _
        | float =>
          simp only [ovr, ovrFloat] at h
          split at h
          · unfold toFloat orOther at h
            rename_i s
            cases hx : X.float s with
            | none => rw [hx] at h; cases h
            | some i => rw [hx] at h; cases h; exact .float _ _
          · obtain ⟨h1, rfl⟩ := guardJson_ok.1 h
            cases o <;> simp [isFloat, isInt] at h1
            · exact .floatBool _
            · exact .floatInt _
            · exact .float _ _
        | bool =>
          simp only [ovr, ovrBool] at h
          split at h
          · split at h
            · cases h; exact .bool _
            · split at h
              · cases h; exact .bool _
              · cases h
          · obtain ⟨h1, rfl⟩ := guardJson_ok.1 h
            cases o <;> simp [isBool] at h1
            exact .bool _
        | none =>
          simp only [ovr, ovrNone] at h
          split at h
          · split at h
            · cases h; exact .none
            · cases h
          · obtain ⟨h1, rfl⟩ := guardJson_ok.1 h
            cases o <;> simp [isNone] at h1
            exact .none
      | literal l =>
        simp only [ovr] at h
        split at h
        · rename_i x
          split at h
          · have e := Except.ok.inj h
            subst e
            refine .literal (x := x) (List.mem_singleton.2 rfl) ?_
            cases x <;> simp [litEq]
          · cases h
        · cases h
      | path => simp [ovr] at h
    | @union ts hts =>
      cases hc with
      | union hck =>
        have un : ∀ t ∈ ts, Conforms E r t → Conforms E r (.union ts) := fun t ht hcc => .union ht hcc
        by_cases ho : ∃ s, o = .str s
        · obtain ⟨s, rfl⟩ := ho
          simp only [ovr] at h
          cases hu : unionText X s ts with
          | some r' =>
            rw [hu] at h
            dsimp only at h
            subst h
            obtain ⟨t, ht, hcc⟩ := unionText_conforms (E := E) hu
            exact un t ht hcc
          | none =>
            rw [hu] at h
            dsimp only at h
            split at h
            · exact text _ s (.union hck) h
            · exact conv_conforms n _ _ r (.str _) (.union hck) h
        · cases hpk : pickType E v ts with
          | error e => cases o <;> first | exact absurd ⟨_, rfl⟩ ho | simp [ovr, hpk] at h
          | ok ot =>
            cases ot with
            | none => cases o <;> first | exact absurd ⟨_, rfl⟩ ho | simp [ovr, hpk] at h
            | some t =>
              have h' : ovr E X strict imports n v o (.ty t) = .ok r := by
                cases o <;> first | exact absurd ⟨_, rfl⟩ ho | (simp only [ovr, hpk] at h; exact h)
              obtain ⟨ht, hi⟩ := pickType_some hpk
              by_cases hd : ∃ d, o = .dict d
              · obtain ⟨d, rfl⟩ := hd
                rcases pick_conforms hsub (built_mono (fun _ => sure_leaf) (.union hts)) hv (built_mono (fun _ => sure_leaf) (hts t ht)) hi h' with hcc | ⟨⟨_, _, rfl⟩, _⟩
                · exact un t ht (ih v _ t r (hts t ht) (hck t ht) hcc h')
                · exact absurd hv (sure_obj (.union hts))
              · -- neither text nor dict: only primitive types accept it
                have hprim : Sure t := by
                  cases n with
                  | zero => simp [ovr] at h'
                  | succ n =>
                  have hb := hts t ht
                  cases hb with
                  | leaf hl => exact hl
                  | union => simp [instDeep] at hi
                  | list => simp [instDeep] at hi
                  | named => cases o <;> first | exact absurd ⟨_, rfl⟩ ho | exact absurd ⟨_, rfl⟩ hd | simp [ovr] at h'
                  | data => cases o <;> first | exact absurd ⟨_, rfl⟩ ho | exact absurd ⟨_, rfl⟩ hd | simp [ovr] at h'
                  | tupleOf => cases o <;> first | exact absurd ⟨_, rfl⟩ ho | exact absurd ⟨_, rfl⟩ hd | simp [ovr] at h'
                -- the present value is of the type that was chosen
                have hcv : Conforms E v t := by
                  cases hprim with
                  | prim hp =>
                    cases hp <;> cases v <;> simp [instDeep, isStr, isInt, isBool, isNone] at hi <;> constructor
                  | literal l => simp [instDeep] at hi
                  | path => cases v <;> simp [instDeep] at hi; constructor
                exact un t ht (ih v o t r (.leaf hprim) (hck t ht) hcv h')
    | @named c fields hcl hn hdash hb =>
      cases hc with
      | named hck hdf =>
        cases hv with
        | named h1 h2 =>
          cases o with
          | str s => simp only [ovr] at h; exact text _ s (.named hck hdf) h
          | dict d =>
            simp only [ovr] at h
            obtain ⟨kw, rfl, a1, a2⟩ := recordCase d c fields _ _ (fun _ => rfl) h1 h2 hn hb hck h
            exact .named a1 a2
          | _ => simp [ovr] at h
    | @data c fields hcl hn hdash hb =>
      cases hc with
      | data hck hdf =>
        cases hv with
        | data h1 h2 =>
          cases o with
          | str s => simp only [ovr] at h; exact text _ s (.data hck hdf) h
          | dict d =>
            simp only [ovr] at h
            obtain ⟨kw, rfl, a1, a2⟩ := recordCase d c fields _ _ (fun _ => rfl) h1 h2 hn hb hck h
            exact .data a1 a2
          | _ => simp [ovr] at h
    | @list t ht =>
      cases hc with
      | list hck =>
        cases hv with
        | list hco =>
          cases o with
          | str s => simp only [ovr] at h; exact text _ s (.list hck) h
          | dict d =>
            simp only [ovr] at h
            obtain ⟨ys, rfl, a⟩ := elemsCase d t _ _ rfl ht hck hco h
            exact .list a
          | _ => simp [ovr] at h
    | @tupleOf t ht =>
      cases hc with
      | tupleOf hck =>
        cases hv with
        | tupleOf hco =>
          cases o with
          | str s => simp only [ovr] at h; exact text _ s (.tupleOf hck) h
          | dict d =>
            simp only [ovr] at h
            obtain ⟨ys, rfl, a⟩ := elemsCase d t _ _ rfl ht hck hco h
            exact .tupleOf a
          | _ => simp [ovr] at h

/-! ## Overrides are accepted -/

theorem maxIndex_single (i : Int) (w : PVal) : maxIndex [(i, w)] = some i := rfl

theorem ovrList_single {rec : PVal → PVal → Res PVal} {v : PVal} {l : List PVal} {d : List (Key × PVal)} {k : Str} {i : Nat} {w o y : PVal}
    {make : List PVal → PVal} (hs : splitKeys d [] = .ok [(.str k, o)]) (hnum : X.numeric k = true) (hi : X.int k = some (i : Int))
    (he : elems v = some l) (hw : l[i]? = some w) (hr : rec w o = .ok y) : ∃ r, ovrList X rec .none v d make = .ok r := by
  have hlt : i < l.length := by
    by_contra hc
    rw [List.getElem?_eq_none (by omega)] at hw; cases hw
  have hix : indexKeys X [(.str k, o)] = .ok [((i : Int), o)] := by
    simp [indexKeys, numericKey, hnum, mapE, indexKey, hi]
  have hall : ∀ j ∈ List.range (max (i + 1) l.length), ∃ b, ovrElem rec [((i : Int), o)] l j = .ok b := by
    intro j hj
    have hj' : j < l.length := by have := List.mem_range.1 hj; omega
    unfold ovrElem
    rw [List.getElem?_eq_getElem hj']
    by_cases hji : j = i
    · subst hji
      rw [List.getElem?_eq_getElem hj'] at hw
      cases hw
      exact ⟨y, by simp [atIndex, hr]⟩
    · refine ⟨l[j], ?_⟩
      have : ¬ ((i : Int) = (j : Int)) := by omega
      simp [atIndex, this]
  have hm : ∃ ys, mapE (ovrElem rec [((i : Int), o)] l) (List.range (max (i + 1) l.length)) = .ok ys := by
    generalize List.range (max (i + 1) l.length) = js at hall
    induction js with
    | nil => exact ⟨[], rfl⟩
    | cons j js ih =>
      obtain ⟨b, hb⟩ := hall j (List.mem_cons_self ..)
      obtain ⟨ys, hys⟩ := ih fun j' hj' => hall j' (List.mem_cons_of_mem _ hj')
      exact ⟨b :: ys, by simp [mapE, hb, hys]⟩
  obtain ⟨ys, hys⟩ := hm
  refine ⟨make ys, ?_⟩
  unfold ovrList
  rw [hs]
  dsimp only
  rw [hix]
  dsimp only
  rw [maxIndex_single, he]
  dsimp only
  rw [if_neg (by simp [beyond]), if_pos]
  · rw [Int.toNat_natCast, hys]; rfl
  · rw [List.all_eq_true]
    intro j hj
    have := List.mem_range.1 hj
    rw [Int.toNat_natCast] at this
    simp; left; omega

theorem lookup_some {fs : List (Str × PVal)} {k : Str} (h : k ∈ fs.map (·.1)) : ∃ w, fs.lookup k = some w := by
  induction fs with
  | nil => cases h
  | cons p fs ih =>
    by_cases hk : k = p.1
    · exact ⟨p.2, by simp [List.lookup, hk]⟩
    · simp only [List.map_cons, List.mem_cons, hk, false_or] at h
      obtain ⟨w, hw⟩ := ih h
      exact ⟨w, by simp only [List.lookup, beq_eq_false_iff_ne.2 hk]; exact hw⟩

theorem ovrRecord_single (hE : ∀ c kw, E.accepts c kw = true) {rec : PVal → PVal → Ty → Res PVal} {strict : Bool} {v : PVal} {d : List (Key × PVal)} {c f : Str}
    {fields : List (Str × Ty × Option PVal)} {make : List (Str × PVal) → PVal} {fs : List (Str × PVal)} {t : Ty} {dflt : Option PVal} {o w y : PVal}
    (hs : splitKeys d [] = .ok [(.str f, o)]) (hfs : fs.map (·.1) = fields.map (·.1)) (hn : (fields.map (·.1)).Nodup) (hf : (f, t, dflt) ∈ fields)
    (hd : '-' ∉ f) (ha : ∀ k, attr v k = fs.lookup k) (hw : fs.lookup f = some w) (hr : rec w o t = .ok y) :
    ∃ r, ovrRecord E rec strict v d c fields make = .ok r := by
  have hund : undash [(Key.str f, o)] = some [(Key.str f, o)] := undash_id (by simp [hd]) (by simp)
  have hall : ∀ g ∈ fields, ∃ b, ovrField rec v [(Key.str f, o)] g = .ok b := by
    intro g hg
    obtain ⟨u, hu⟩ := lookup_some (fs := fs) (k := g.1) (by rw [hfs]; exact List.mem_map.2 ⟨g, hg, rfl⟩)
    unfold ovrField
    rw [ha, hu]
    dsimp only
    by_cases hgf : f = g.1
    · have e : g = (f, t, dflt) := by
        obtain ⟨i, hi, e1⟩ := List.mem_iff_getElem.1 hg
        obtain ⟨j, hj, e2⟩ := List.mem_iff_getElem.1 hf
        have : i = j := by
          have h1 : (fields.map (·.1))[i]'(by simpa using hi) = (fields.map (·.1))[j]'(by simpa using hj) := by
            rw [List.getElem_map, List.getElem_map, e1, e2]; exact hgf.symm
          exact (List.Nodup.getElem_inj_iff hn).1 h1
        subst this
        rw [← e1, e2]
      subst e
      rw [hw] at hu
      cases hu
      exact ⟨(f, y), by simp [getKey, lookupK, hr]⟩
    · exact ⟨(g.1, u), by simp [getKey, lookupK, hgf]⟩
  have hm : ∀ (gs : List (Str × Ty × Option PVal)), (∀ g ∈ gs, g ∈ fields) → ∃ kw, mapE (ovrField rec v [(Key.str f, o)]) gs = .ok kw := by
    intro gs
    induction gs with
    | nil => exact fun _ => ⟨[], rfl⟩
    | cons g gs ih =>
      intro hg
      obtain ⟨b, hb⟩ := hall g (hg g (List.mem_cons_self ..))
      obtain ⟨ys, hys⟩ := ih fun g' hg' => hg g' (List.mem_cons_of_mem _ hg')
      exact ⟨b :: ys, by simp [mapE, hb, hys]⟩
  obtain ⟨kw, hkw⟩ := hm fields fun _ h => h
  refine ⟨make kw, ?_⟩
  unfold ovrRecord
  rw [hs]
  dsimp only
  rw [hund]
  dsimp only
  rw [show ovrFields rec v [(Key.str f, o)] fields = .ok kw from hkw]
  dsimp only
  rw [if_neg]
  · simp [guardJson, hE]
  · have : onlyFields [(Key.str f, o)] fields = true := onlyFields_iff.2 (by
      intro p hp
      cases List.mem_singleton.1 hp
      exact ⟨_, hf, rfl⟩)
    simp [this]

/-- What one key becomes: `o` for the place itself, or a dict with the rest of the key -/
def Gives (o x : PVal) (p : List Str) : Prop := (p = [] ∧ o = x) ∨ ∃ k, o = .dict [(.str k, x)] ∧ dots k = p

theorem gives_split {o x : PVal} {f : Str} {p : List Str} (h : Gives o x (f :: p)) :
    ∃ d o', o = .dict d ∧ splitKeys d [] = .ok [(.str f, o')] ∧ Gives o' x p := by
  rcases h with ⟨h, _⟩ | ⟨k, rfl, hk⟩
  · cases h
  · cases hd : firstDot k with
    | none =>
      rw [dots_none hd] at hk
      cases hk
      exact ⟨_, x, rfl, by simp [splitKeys, hd, lookupK, putKey], .inl ⟨rfl, rfl⟩⟩
    | some q =>
      obtain ⟨a, b⟩ := q
      rw [dots_some hd] at hk
      cases hk
      exact ⟨_, .dict [(.str b, x)], rfl, by simp [splitKeys, hd, lookupK, putKey], .inr ⟨b, rfl, rfl⟩⟩

theorem way_accepted (hE : ∀ c kw, E.accepts c kw = true) {strict imports : Bool} {v w : PVal} {T t : Ty} {p : List Str} (hw : Way X v T p w t)
    {x y o : PVal} {m : Nat} (hy : ovr E X strict imports m w x (.ty t) = .ok y) (ho : Gives o x p) :
    ∃ n r, ovr E X strict imports n v o (.ty T) = .ok r := by
  induction hw generalizing o with
  | here =>
    rcases ho with ⟨_, rfl⟩ | ⟨k, _, hk⟩
    · exact ⟨m, y, hy⟩
    · exact absurd hk (dots_ne k)
  | named h1 h2 h3 h4 h5 _ ih =>
    obtain ⟨d, o', rfl, hs, hg⟩ := gives_split ho
    obtain ⟨n, r', hr⟩ := ih hy hg
    obtain ⟨r, hr'⟩ := ovrRecord_single (strict := strict) (v := .named _ _) (make := .named _) hE hs h1 h2 h3 h4 (fun _ => rfl) h5 (rec := fun old o t => ovr E X strict imports n old o (.ty t)) hr
    exact ⟨n + 1, r, by simp only [ovr]; exact hr'⟩
  | data h1 h2 h3 h4 h5 _ ih =>
    obtain ⟨d, o', rfl, hs, hg⟩ := gives_split ho
    obtain ⟨n, r', hr⟩ := ih hy hg
    obtain ⟨r, hr'⟩ := ovrRecord_single (strict := strict) (v := .data _ _) (make := .data _) hE hs h1 h2 h3 h4 (fun _ => rfl) h5 (rec := fun old o t => ovr E X strict imports n old o (.ty t)) hr
    exact ⟨n + 1, r, by simp only [ovr]; exact hr'⟩
  | list h1 h2 h3 _ ih =>
    obtain ⟨d, o', rfl, hs, hg⟩ := gives_split ho
    obtain ⟨n, r', hr⟩ := ih hy hg
    obtain ⟨r, hr'⟩ := ovrList_single (v := .list _) (make := .list) hs h1 h2 rfl h3 (rec := fun old o => ovr E X strict imports n old o (.ty _)) hr
    exact ⟨n + 1, r, by simp only [ovr]; exact hr'⟩
  | tupleOf h1 h2 h3 _ ih =>
    obtain ⟨d, o', rfl, hs, hg⟩ := gives_split ho
    obtain ⟨n, r', hr⟩ := ih hy hg
    obtain ⟨r, hr'⟩ := ovrList_single (v := .tuple _) (make := .tuple) hs h1 h2 rfl h3 (rec := fun old o => ovr E X strict imports n old o (.ty _)) hr
    exact ⟨n + 1, r, by simp only [ovr]; exact hr'⟩
  | @optNamed c k fs fields t' w' p _ ih =>
    obtain ⟨n, r, hr⟩ := ih hy ho
    obtain ⟨d, o', rfl, _, _⟩ := gives_split ho
    refine ⟨n + 1, r, ?_⟩
    simp only [ovr, pickType, instDeep, classOf]
    simpa using hr
  | @optData c k fs fields t' w' p _ ih =>
    obtain ⟨n, r, hr⟩ := ih hy ho
    obtain ⟨d, o', rfl, _, _⟩ := gives_split ho
    refine ⟨n + 1, r, ?_⟩
    simp only [ovr, pickType, instDeep, classOf]
    simpa using hr

/-! ## The claims -/

/-- **C110** in full, first part: what the overrides do not name stays as it is, for every configuration. -/
def C110_statement : Prop :=
  ∀ (E : Env) (X : Texts) (strict imports : Bool) (n : Nat) (v o : PVal) (T : Ty) (r : PVal) (p : List Str), Conforms E v T →
    ovr E X strict imports n v o (.ty T) = .ok r → (∀ q x, Named o q x → ¬ Related X q p) → place X r p = place X v p

/-- **C110, what is not named stays**: whatever the overrides are. For configurations whose annotations do not contain `Any`, `list`, or tuples of fixed size
with structured elements, and without classes derived from each other (`C110_violated_derived`). What is inside of dicts is not part of the
claim (`C110_violated_dict`). -/
theorem C110_only_named_partial (hsub : ∀ a b, E.isSub a b = true → a = b) (strict imports : Bool) (n : Nat) (v o : PVal) (T : Ty) (r : PVal)
    (p : List Str) (hT : Built X Leaf T) (hv : Conforms E v T) (h : ovr E X strict imports n v o (.ty T) = .ok r)
    (hp : ∀ q x, Named o q x → ¬ Related X q p) : place X r p = place X v p :=
  only_named hsub n v o T r p hT hv h hp

/-- **C110, what is named gets the given value**: the value given for a key, converted for the annotation of this place, is at this place afterwards. For
overrides that are single values for keys with dots. (With nested dicts beside such keys and with `-` values can get lost:
`C110_violated_mixed`, `C110_violated_dash`.) -/
theorem C110_named_partial (hsub : ∀ a b, E.isSub a b = true → a = b) (strict imports : Bool) (n : Nat) (v : PVal) (d : List (Key × PVal)) (T : Ty)
    (r : PVal) (k : Str) (x old : PVal) (hT : Built X Leaf T) (hv : Conforms E v T) (hd : Tidy X d)
    (h : ovr E X strict imports n v (.dict d) (.ty T) = .ok r) (hk : (.str k, x) ∈ d) (hold : place X v (dots k) = some old) :
    ∃ m t y, m < n ∧ TyAt E X v T (dots k) t ∧ ovr E X strict imports m old x (.ty t) = .ok y ∧ place X r (dots k) = some y :=
  named_value hsub n v d T r k x old hT hv hd h hk hold

/-- **C110, the value of a text**: for the primitive types the text is read as a value of the type, for dataclasses, named tuples, lists and
tuples it is JSON data that are converted as for `raw_to_typed` (C72, C73), for a union with `str` it is the text itself unless an earlier type
takes it. -/
theorem C110_texts (strict imports : Bool) (n : Nat) (old : PVal) (s : Str) :
    ovr E X strict imports (n + 1) old (.str s) (.ty .str) = .ok (.str s) ∧
    (∀ i, X.int s = some i → ovr E X strict imports (n + 1) old (.str s) (.ty .int) = .ok (.int i)) ∧
    (∀ a b, X.float s = some (a, b) → ovr E X strict imports (n + 1) old (.str s) (.ty .float) = .ok (.float a b)) ∧
    (s ∈ ["True".toList, "true".toList, "1".toList] → ovr E X strict imports (n + 1) old (.str s) (.ty .bool) = .ok (.bool true)) ∧
    (s ∈ ["False".toList, "false".toList, "0".toList] → ovr E X strict imports (n + 1) old (.str s) (.ty .bool) = .ok (.bool false)) ∧
    (∀ T raw, (∃ c fields, T = .named c fields ∨ T = .data c fields) ∨ (∃ t, T = .list t ∨ T = .tupleOf t) → X.json s = some raw →
      ovr E X strict imports (n + 1) old (.str s) (.ty T) = conv E strict imports n raw T) := by
  refine ⟨by simp [ovr, guardJson, isStr], ?_, ?_, ?_, ?_, ?_⟩
  · intro i h; simp [ovr, ovrInt, toInt, orOther, h]
  · intro a b h; simp [ovr, ovrFloat, toFloat, orOther, h]
  · intro h; simp only [ovr, ovrBool]; exact if_pos h
  · intro h
    simp only [ovr, ovrBool]
    have hn : s ∉ trueWords := by
      simp only [List.mem_cons, List.not_mem_nil, or_false] at h
      rcases h with rfl | rfl | rfl <;> decide
    rw [if_neg hn]
    exact if_pos h
  · rintro T raw (⟨c, fields, rfl | rfl⟩ | ⟨t, rfl | rfl⟩) h <;> simp [ovr, fromText, h]

/-- The texts a type of a union takes: `True` and `False` for `bool`, what `isnumeric` accepts for `int`, what looks like a float for `float`, every text for
`str`. The other types take no text by themselves. -/
inductive Takes (X : Texts) (s : Str) : Ty → Prop
  | bool : s = "True".toList ∨ s = "False".toList → Takes X s .bool
  | int : X.numeric ((s.dropWhile X.blank).reverse.dropWhile X.blank).reverse = true → Takes X s .int
  | float : X.looksFloat s = true → Takes X s .float
  | str : Takes X s .str

theorem unionText_skip {s : Str} (before ts : List Ty) (h : ∀ t ∈ before, ¬ Takes X s t) : unionText X s (before ++ ts) = unionText X s ts := by
  induction before with
  | nil => rfl
  | cons b bs ih =>
    have hb := h b (List.mem_cons_self ..)
    have ih := ih fun t ht => h t (List.mem_cons_of_mem _ ht)
    cases b with
    | bool =>
      have h1 : s ≠ "True".toList := fun e => hb (.bool (Or.inl e))
      have h2 : s ≠ "False".toList := fun e => hb (.bool (Or.inr e))
      rw [List.cons_append, unionText, if_neg h1, if_neg h2, ih]
    | int =>
      rw [List.cons_append, unionText, if_neg fun e => hb (.int e), ih]
    | float =>
      rw [List.cons_append, unionText, if_neg fun e => hb (.float e), ih]
    | str => exact absurd .str hb
    | _ => rw [List.cons_append, unionText]; exact ih; all_goals simp

/-- **C110, a text for a union**: the first type of the union that takes the text decides, and the value is the one this type alone would give. -/
theorem C110_union_texts (strict imports : Bool) (n : Nat) (old : PVal) (s : Str) (before after : List Ty) (t : Ty)
    (hb : ∀ u ∈ before, ¬ Takes X s u) (ht : Takes X s t) :
    ovr E X strict imports (n + 1) old (.str s) (.ty (.union (before ++ t :: after))) = ovr E X strict imports (n + 1) old (.str s) (.ty t) := by
  have key : ∀ r, unionText X s (t :: after) = some r → ovr E X strict imports (n + 1) old (.str s) (.ty (.union (before ++ t :: after))) = r := by
    intro r hr
    simp only [ovr, unionText_skip _ _ hb, hr]
  cases ht with
  | bool h =>
    rcases h with rfl | rfl
    · rw [key _ (by rw [unionText, if_pos rfl])]
      simp only [ovr, ovrBool]
      exact (if_pos (by decide)).symm
    · rw [key _ (by rw [unionText, if_neg (by decide), if_pos rfl])]
      simp only [ovr, ovrBool]
      rw [if_neg (by decide)]
      exact (if_pos (by decide)).symm
  | int h => rw [key _ (by rw [unionText, if_pos h])]; simp only [ovr, ovrInt]
  | float h => rw [key _ (by rw [unionText, if_pos h])]; simp only [ovr, ovrFloat]
  | str => rw [key _ (by rw [unionText])]; simp [ovr, guardJson, isStr]

/-- `False` for `Optional[bool]` or `Union[int, bool, str]` -/
example (h : X.numeric "False".toList = false) (hb : ∀ c, X.blank c = true → c = ' ') (strict imports : Bool) (old : PVal) :
    ovr E X strict imports 3 old (.str "False".toList) (.ty (.union [.none, .int, .bool, .str])) = .ok (.bool false) := by
  have hF : X.blank 'F' = false := by
    cases hx : X.blank 'F' with
    | false => rfl
    | true => exact absurd (hb _ hx) (by decide)
  have he : X.blank 'e' = false := by
    cases hx : X.blank 'e' with
    | false => rfl
    | true => exact absurd (hb _ hx) (by decide)
  have h' : X.numeric ['F', 'a', 'l', 's', 'e'] = false := h
  refine (C110_union_texts strict imports 2 old _ [.none, .int] [.str] .bool ?_ (.bool (Or.inr rfl))).trans ?_
  rotate_left
  · exact (C110_texts strict imports 2 old _).2.2.2.2.1 (by decide)
  · intro u hu ht
    simp only [List.mem_cons, List.not_mem_nil, or_false] at hu
    rcases hu with rfl | rfl
    · cases ht
    · cases ht with
      | int hn => simp [List.dropWhile, hF, he, h'] at hn

/-- **C110, a text no type of the union takes**: data in JSON if it begins with `{` or `[`, otherwise the text itself, converted for the union as by
`raw_to_typed`. -/
theorem C110_union_rest (strict imports : Bool) (n : Nat) (old : PVal) (s : Str) (ts : List Ty) (hno : ∀ u ∈ ts, ¬ Takes X s u) :
    (∀ c t raw, s.dropWhile X.blank = c :: t → c = '{' ∨ c = '[' → X.json s = some raw →
      ovr E X strict imports (n + 1) old (.str s) (.ty (.union ts)) = conv E strict imports n raw (.union ts)) ∧
    ((∀ c t, s.dropWhile X.blank = c :: t → c ≠ '{' ∧ c ≠ '[') →
      ovr E X strict imports (n + 1) old (.str s) (.ty (.union ts)) = conv E strict imports n (.str s) (.union ts)) := by
  have h0 : unionText X s ts = .none := by
    have := unionText_skip (X := X) (s := s) ts [] hno
    rwa [List.append_nil] at this
  constructor
  · intro c t raw hd hc hj
    have hl : looksJson X s = true := by
      unfold looksJson
      rw [hd]
      rcases hc with rfl | rfl <;> rfl
    simp only [ovr, h0, hl, if_true, fromText, hj]
  · intro hd
    have hl : looksJson X s = false := by
      unfold looksJson
      split
      · rename_i h; exact absurd rfl (hd _ _ h).1
      · rename_i h; exact absurd rfl (hd _ _ h).2
      · rfl
    simp [ovr, h0, hl]

/-- **C110, texts for `Any` and `None`** (for `False` see `C110_violated_any`) -/
theorem C110_any_texts (strict imports : Bool) (n : Nat) (old : PVal) (s : Str) :
    (∀ i, X.numeric s = true → X.int s = some i → ovr E X strict imports (n + 1) old (.str s) (.ty .any) = .ok (.int i)) ∧
    (X.numeric s = false → s = "True".toList → ovr E X strict imports (n + 1) old (.str s) (.ty .any) = .ok (.bool true)) ∧
    (X.numeric s = false → s ≠ "True".toList → s ≠ "False".toList → ovr E X strict imports (n + 1) old (.str s) (.ty .any) = .ok (.str s)) ∧
    (s = "None".toList → ovr E X strict imports (n + 1) old (.str s) (.ty .none) = .ok .none) ∧
    (s ≠ "None".toList → ovr E X strict imports (n + 1) old (.str s) (.ty .none) = .error .json) := by
  refine ⟨?_, ?_, ?_, ?_, ?_⟩
  · intro i h hi; simp [ovr, h, toInt, orOther, hi]
  · rintro h rfl; simp only [ovr, h]; rfl
  · intro h h1 h2
    simp only [ovr, h]
    rw [if_neg (by decide), if_neg h1, if_neg h2]
  · rintro rfl; simp only [ovr, ovrNone]; rfl
  · intro h; simp only [ovr, ovrNone]; exact if_neg h

/-- A value belongs to a type of a union: what `isinstance` says; the types that make the code raise are not here (`C110_violated_optional_list`). -/
inductive Belongs (E : Env) : PVal → Ty → Prop
  | any (v : PVal) : Belongs E v .any
  | str (s : Str) : Belongs E (.str s) .str
  | int (i : Int) : Belongs E (.int i) .int
  | intBool (b : Bool) : Belongs E (.bool b) .int
  | float (a : Int) (b : Nat) : Belongs E (.float a b) .float
  | bool (b : Bool) : Belongs E (.bool b) .bool
  | none : Belongs E .none .none
  | rawList (l : List PVal) : Belongs E (.list l) .rawList
  | rawDict (d : List (Key × PVal)) : Belongs E (.dict d) .rawDict
  | path (p : Str) : Belongs E (.path p) .path
  | named {v : PVal} {c c' : Str} (fields : List (Str × Ty × Option PVal)) : classOf v = some c' → c' = c ∨ E.isSub c' c = true → Belongs E v (.named c fields)
  | data {v : PVal} {c c' : Str} (fields : List (Str × Ty × Option PVal)) : classOf v = some c' → c' = c ∨ E.isSub c' c = true → Belongs E v (.data c fields)
  | cls {v : PVal} {c c' : Str} : classOf v = some c' → c' = c ∨ E.isSub c' c = true → Belongs E v (.cls c)
  | emptyTuple (ts : List Ty) : Belongs E (.tuple []) (.tuple ts)
  | emptyNamed (c : Str) (ts : List Ty) : Belongs E (.named c []) (.tuple ts)
  | emptyTupleOf (t : Ty) : Belongs E (.tuple []) (.tupleOf t)
  | emptyNamedOf (c : Str) (t : Ty) : Belongs E (.named c []) (.tupleOf t)

/-- The types `isinstance` can be asked about -/
def Askable : Ty → Prop
  | .literal _ | .list _ | .dict _ | .type _ | .callable | .union _ => False
  | _ => True

theorem inst_true {v : PVal} {t : Ty} (h : Belongs E v t) : instDeep E v t = .ok true := by
  cases h with
  | named _ h1 h2 => simp only [instDeep, h1]; rcases h2 with rfl | h2 <;> simp [*]
  | data _ h1 h2 => simp only [instDeep, h1]; rcases h2 with rfl | h2 <;> simp [*]
  | cls h1 h2 => simp only [instDeep, h1]; rcases h2 with rfl | h2 <;> simp [*]
  | _ => rfl

theorem inst_false {v : PVal} {t : Ty} (ha : Askable t) (h : ¬ Belongs E v t) : instDeep E v t = .ok false := by
  have hcls : ∀ c, (∀ c', classOf v = some c' → ¬ (c' = c ∨ E.isSub c' c = true)) →
      (match classOf v with | some c' => (.ok (c' = c || E.isSub c' c) : Res Bool) | .none => .ok false) = .ok false := by
    intro c hc
    cases hv : classOf v with
    | none => rfl
    | some c' =>
      have := hc c' hv
      rw [not_or] at this
      simp [this.1, this.2]
  cases t with
  | any => exact absurd (.any v) h
  | literal => exact ha.elim
  | list => exact ha.elim
  | dict => exact ha.elim
  | type => exact ha.elim
  | callable => exact ha.elim
  | union => exact ha.elim
  | named c fields => exact hcls c fun c' h1 h2 => h (.named fields h1 h2)
  | data c fields => exact hcls c fun c' h1 h2 => h (.data fields h1 h2)
  | cls c => exact hcls c fun c' h1 h2 => h (.cls h1 h2)
  | str => cases v <;> first | rfl | exact absurd (.str _) h
  | int => cases v <;> first | rfl | exact absurd (.int _) h | exact absurd (.intBool _) h
  | float => cases v <;> first | rfl | exact absurd (.float _ _) h
  | bool => cases v <;> first | rfl | exact absurd (.bool _) h
  | none => cases v <;> first | rfl | exact absurd .none h
  | rawList => cases v <;> first | rfl | exact absurd (.rawList _) h
  | rawDict => cases v <;> first | rfl | exact absurd (.rawDict _) h
  | path => cases v <;> first | rfl | exact absurd (.path _) h
  | tupleOf t =>
    cases v with
    | tuple l => cases l with
      | nil => exact absurd (.emptyTupleOf t) h
      | cons => rfl
    | named c l => cases l with
      | nil => exact absurd (.emptyNamedOf c t) h
      | cons => rfl
    | _ => rfl
  | tuple ts =>
    cases v with
    | tuple l => cases l with
      | nil => exact absurd (.emptyTuple ts) h
      | cons => rfl
    | named c l => cases l with
      | nil => exact absurd (.emptyNamed c ts) h
      | cons => rfl
    | _ => rfl

/-- **C110, overrides for a value of a union**: what is not a text is taken as for the first type the present value belongs to. -/
theorem C110_union_value (strict imports : Bool) (n : Nat) (old o : PVal) (before after : List Ty) (t : Ty) (ho : isStr o = false)
    (hb : ∀ u ∈ before, Askable u ∧ ¬ Belongs E old u) (ht : Belongs E old t) :
    ovr E X strict imports (n + 1) old o (.ty (.union (before ++ t :: after))) = ovr E X strict imports n old o (.ty t) := by
  have hp : pickType E old (before ++ t :: after) = .ok (some t) := by
    induction before with
    | nil => rw [List.nil_append, pickType, inst_true ht]
    | cons b bs ih =>
      obtain ⟨h1, h2⟩ := hb b (List.mem_cons_self ..)
      rw [List.cons_append, pickType, inst_false h1 h2]
      exact ih fun u hu => hb u (List.mem_cons_of_mem _ hu)
  cases o with
  | str s => exact absurd ho (by simp [isStr])
  | _ => simp only [ovr, hp]

/-- An optional dataclass -/
example (strict imports : Bool) (n : Nat) (c : Str) (fs : List (Str × PVal)) (fields : List (Str × Ty × Option PVal)) (d : List (Key × PVal)) :
    ovr E X strict imports (n + 1) (.data c fs) (.dict d) (.ty (.union [.none, .data c fields])) = ovr E X strict imports n (.data c fs) (.dict d) (.ty (.data c fields)) :=
  C110_union_value strict imports n _ _ [.none] [] _ rfl
    (fun u hu => by rw [List.mem_singleton] at hu; subst hu; exact ⟨trivial, fun h => by cases h⟩) (.data fields rfl (Or.inl rfl))

/-- **C110, the result is of the annotated type**: for annotations made of dataclasses, named tuples, unions, lists and tuples of any length over primitive
types, literals and paths. -/
theorem C110_typed_partial (hsub : ∀ a b, E.isSub a b = true → a = b) (hjson : ∀ s raw, X.json s = some raw → StrKeys raw) (strict imports : Bool) (n : Nat)
    (v o : PVal) (T : Ty) (r : PVal) (hT : Built X Sure T) (hc : Checked T) (hv : Conforms E v T)
    (h : ovr E X strict imports n v o (.ty T) = .ok r) : Conforms E r T :=
  ovr_conforms hsub hjson n v o T r hT hc hv h

/-- **C110, an override is accepted**: a value can be set at every place that is reached through dataclasses, named tuples (also optional ones), lists
and tuples, if it can be converted for this place and the constructors accept it. -/
theorem C110_accepted (hE : ∀ c kw, E.accepts c kw = true) (strict imports : Bool) (m : Nat) (v old x y : PVal) (T t : Ty) (k : Str)
    (hw : Way X v T (dots k) old t) (hy : ovr E X strict imports m old x (.ty t) = .ok y) :
    ∃ n r, ovr E X strict imports n v (.dict [(.str k, x)]) (.ty T) = .ok r :=
  way_accepted hE hw hy (.inr ⟨k, rfl, rfl⟩)

theorem split_has {d res l : List (Key × PVal)} (h : splitKeys d res = .ok l) :
    (∀ e ∈ res, ∃ w, (e.1, w) ∈ l) ∧ ∀ k w, (Key.str k, w) ∈ d → ∃ a p w', dots k = a :: p ∧ (Key.str a, w') ∈ l := by
  have keep : ∀ {r : List (Key × PVal)} {k : Key} {v : PVal} {e : Key × PVal}, e ∈ r → ∃ w, (e.1, w) ∈ putKey r k v := by
    intro r k v e he
    by_cases hk : e.1 = k
    · exact ⟨v, hk ▸ ovrLookup_mem (ovrLookup_put r _ v)⟩
    · exact ⟨e.2, mem_put_other (w := e.2) he hk⟩
  induction d generalizing res with
  | nil =>
    simp only [splitKeys, Except.ok.injEq] at h
    subst h
    exact ⟨fun e he => ⟨e.2, he⟩, fun k w hm => by cases hm⟩
  | cons e d ih =>
    obtain ⟨k1, v⟩ := e
    cases k1 with
    | int n => simp [splitKeys] at h
    | str k1 =>
      have step : ∀ (a : Str) (p : List Str) (w : PVal), dots k1 = a :: p → splitKeys d (putKey res (.str a) w) = .ok l →
          (∀ e ∈ res, ∃ w, (e.1, w) ∈ l) ∧ ∀ k w, (Key.str k, w) ∈ ((Key.str k1, v) :: d) → ∃ a p w', dots k = a :: p ∧ (Key.str a, w') ∈ l := by
        intro a p w hd hs
        obtain ⟨h1, h2⟩ := ih hs
        refine ⟨fun e he => ?_, fun k w' hm => ?_⟩
        · obtain ⟨w1, hw1⟩ := keep (k := .str a) (v := w) he
          exact h1 (e.1, w1) hw1
        · rcases List.mem_cons.1 hm with e | hm
          · cases e
            obtain ⟨w1, hw1⟩ := h1 (.str a, w) (ovrLookup_mem (ovrLookup_put res _ w))
            exact ⟨a, p, w1, hd, hw1⟩
          · exact h2 k w' hm
      simp only [splitKeys] at h
      cases hf : firstDot k1 with
      | none =>
        simp only [hf] at h
        split at h
        · cases h
        · exact step k1 [] v (dots_none hf) h
      | some p =>
        obtain ⟨outer, inner⟩ := p
        simp only [hf] at h
        cases hl : lookupK res (.str outer) with
        | none =>
          simp only [hl] at h
          exact step outer (dots inner) _ (dots_some hf) h
        | some w0 =>
          simp only [hl] at h
          cases w0 with
          | dict m => exact step outer (dots inner) _ (dots_some hf) h
          | _ => simp at h

theorem maxIndex_ge {l : List (Int × PVal)} {m : Int} (h : maxIndex l = some m) : ∀ p ∈ l, p.1 ≤ m := by
  induction l generalizing m with
  | nil => cases h
  | cons q l ih =>
    simp only [maxIndex] at h
    cases hm : maxIndex l with
    | none =>
      rw [hm] at h
      have : l = [] := by
        cases l with
        | nil => rfl
        | cons a l => simp only [maxIndex] at hm; split at hm <;> cases hm
      subst this
      intro p hp
      cases List.mem_singleton.1 hp
      simp only [Option.some.injEq] at h
      omega
    | some m' =>
      rw [hm] at h
      simp only [Option.some.injEq] at h
      intro p hp
      rcases List.mem_cons.1 hp with rfl | hp
      · split at h <;> omega
      · have := ih hm p hp
        split at h <;> omega

theorem ovrList_within {rec : PVal → PVal → Res PVal} {bound : Option Nat} {v : PVal} {d : List (Key × PVal)} {make : List PVal → PVal} {r : PVal} {xs : List PVal}
    (hx : elems v = some xs) (h : ovrList X rec bound v d make = .ok r) {k a : Str} {p : List Str} {w : PVal} {i : Int} (hk : (Key.str k, w) ∈ d)
    (ha : dots k = a :: p) (hi : X.int a = some i) : i < xs.length := by
  unfold ovrList at h
  cases h1 : splitKeys d [] with
  | error e => rw [h1] at h; cases h
  | ok l =>
    rw [h1] at h
    dsimp only at h
    cases h2 : indexKeys X l with
    | error e => rw [h2] at h; cases h
    | ok li =>
      rw [h2] at h
      dsimp only at h
      cases h3 : maxIndex li with
      | none => rw [h3] at h; cases h
      | some m =>
        rw [h3, hx] at h
        dsimp only at h
        split at h
        · cases h
        · split at h
          · obtain ⟨a', p', w', e, hm⟩ := (split_has h1).2 k w hk
            rw [ha] at e
            cases e
            have h2' : mapE (indexKey X) l = .ok li := by
              unfold indexKeys at h2
              split at h2
              · exact h2
              · cases h2
            obtain ⟨b, hb, hb'⟩ := (mapE_ok_mem h2').1 _ hm
            have hbi : b = (i, w') := by
              unfold indexKey at hb'
              simp only [hi, Except.ok.injEq] at hb'
              exact hb'.symm
            have hle : i ≤ m := by have := maxIndex_ge h3 b hb; rw [hbi] at this; exact this
            obtain ⟨ys, hy, _⟩ := map_eq_ok h
            obtain ⟨b', _, hb''⟩ := (mapE_ok_mem hy).1 m.toNat (List.mem_range.2 (by omega))
            unfold ovrElem at hb''
            cases hxm : xs[m.toNat]? with
            | none => rw [hxm] at hb''; cases hb''
            | some x0 =>
              have := (List.getElem?_eq_some_iff.1 hxm).1
              omega
          · cases h

/-- **C110, an index that does not exist is refused**: no override is dropped silently for lists and tuples. -/
theorem C110_index (strict imports : Bool) (n : Nat) (l : List PVal) (d : List (Key × PVal)) (T : Ty) (r : PVal) (k a : Str) (p : List Str) (w : PVal) (i : Int)
    (hT : ∃ t ts, T = .list t ∨ T = .tupleOf t ∨ T = .tuple ts) (hk : (Key.str k, w) ∈ d) (ha : dots k = a :: p) (hi : X.int a = some i)
    (h : ovr E X strict imports n (.list l) (.dict d) (.ty T) = .ok r ∨ ovr E X strict imports n (.tuple l) (.dict d) (.ty T) = .ok r) : i < l.length := by
  obtain ⟨t, ts, hT⟩ := hT
  cases n with
  | zero => rcases h with h | h <;> simp [ovr] at h
  | succ n =>
    rcases hT with rfl | rfl | rfl <;> rcases h with h | h <;> simp only [ovr] at h <;> exact ovrList_within rfl h hk ha hi

/-- **C110, nothing given, nothing changed** (dataclasses and named tuples) -/
theorem C110_empty (hE : ∀ c kw, E.accepts c kw = true) (strict imports : Bool) (n : Nat) (c : Str) (fs : List (Str × PVal))
    (fields : List (Str × Ty × Option PVal)) (hn : (fields.map (·.1)).Nodup) (h : fs.map (·.1) = fields.map (·.1)) :
    ovr E X strict imports (n + 1) (.named c fs) (.dict []) (.ty (.named c fields)) = .ok (.named c fs) ∧
    ovr E X strict imports (n + 1) (.data c fs) (.dict []) (.ty (.data c fields)) = .ok (.data c fs) := by
  have key : ∀ (v : PVal) (rec : PVal → PVal → Ty → Res PVal), (∀ k, attr v k = fs.lookup k) → ovrFields rec v [] fields = .ok fs := by
    intro v rec ha
    unfold ovrFields
    refine mapE_eq (by simpa using congrArg List.length h) ?_
    intro p hp
    have hz : (p.2, p.1) ∈ fs.zip fields := mem_zip_swap hp
    obtain ⟨_, hl⟩ := lookup_zip h hn hz
    have hname : p.2.1 = p.1.1 := by
      obtain ⟨i, hi, e⟩ := List.mem_iff_getElem.1 hz
      rw [List.getElem_zip] at e
      have e1 := (Prod.mk.inj e).1
      have e2 := (Prod.mk.inj e).2
      simp only [List.length_zip] at hi
      have h1 : (fs.map (·.1))[i]'(by simp; omega) = (fields.map (·.1))[i]'(by simp; omega) := by simp only [h]
      rw [List.getElem_map, List.getElem_map, e1, e2] at h1
      exact h1
    unfold ovrField
    rw [ha]
    dsimp only at hl
    rw [hl]
    show Except.ok (p.1.1, p.2.2) = Except.ok p.2
    rw [← hname]
  constructor
  · simp only [ovr, ovrRecord, splitKeys]
    rw [show undash [] = some [] from rfl]
    dsimp only
    rw [key _ _ fun _ => rfl]
    dsimp only
    rw [if_neg (by simp [onlyFields])]
    simp [guardJson, hE]
  · simp only [ovr, ovrRecord, splitKeys]
    rw [show undash [] = some [] from rfl]
    dsimp only
    rw [key _ _ fun _ => rfl]
    dsimp only
    rw [if_neg (by simp [onlyFields])]
    simp [guardJson, hE]

/-- **C110, a wrong index is a configuration error**: a key of a list or tuple that is no number, and for a tuple of fixed size an index behind its end. -/
theorem C110_wrong_index (strict imports : Bool) (n : Nat) (v x : PVal) (t : Ty) (ts : List Ty) (k : Str) (hk : firstDot k = .none) :
    (X.numeric k = false →
      ovr E X strict imports (n + 1) v (.dict [(.str k, x)]) (.ty (.list t)) = .error .json ∧
      ovr E X strict imports (n + 1) v (.dict [(.str k, x)]) (.ty (.tupleOf t)) = .error .json ∧
      ovr E X strict imports (n + 1) v (.dict [(.str k, x)]) (.ty (.tuple ts)) = .error .json) ∧
    ∀ (l : List PVal) (i : Nat), v = .tuple l → X.numeric k = true → X.int k = some (i : Int) → ts.length ≤ i →
      ovr E X strict imports (n + 1) v (.dict [(.str k, x)]) (.ty (.tuple ts)) = .error .json := by
  constructor
  · intro h
    refine ⟨?_, ?_, ?_⟩ <;> simp [ovr, ovrList, splitKeys, hk, lookupK, putKey, indexKeys, numericKey, h]
  · rintro l i rfl hn hi hl
    have : (ts.length : Int) ≤ i := by omega
    simp [ovr, ovrList, splitKeys, hk, lookupK, putKey, indexKeys, numericKey, hn, mapE, indexKey, hi, maxIndex, elems, beyond, hl]

/-- **C110, new keys of a dict** get the value that the text stands for (JSON), converted for the annotation. -/
theorem C110_dict_new (strict imports : Bool) (n : Nat) (t : Ty) (k s : Str) (raw r : PVal) (hk : firstDot k = .none) (hd : '-' ∉ k)
    (hj : X.json s = some raw) (hc : conv E strict imports n raw t = .ok r) :
    ovr E X strict imports (n + 1) (.dict []) (.dict [(.str k, .str s)]) (.ty (.dict t)) = .ok (.dict [(.str k, r)]) := by
  have hm : und k = k := und_id hd
  unfold und at hm
  simp [ovr, ovrDict, splitKeys, hk, lookupK, putKey, undash, hm, ovrItems, ovrNew, hj, hc, Except.map]

/-- **C110, what an override of a dict does**: with a pair `[key, old]` as the value of an entry, the pair is taken for the entry, and its value is
overridden. (This is the way to override something in a dict; see `C110_violated_dict` for other values.) -/
theorem C110_dict_pair (strict imports : Bool) (n : Nat) (t : Ty) (e : Key) (k : Str) (old o r : PVal) (hk : firstDot k = .none) (hd : '-' ∉ k)
    (hr : ovr E X strict imports n old o (.ty t) = .ok r) :
    ovr E X strict imports (n + 1) (.dict [(e, .list [.str k, old])]) (.dict [(.str k, o)]) (.ty (.dict t)) = .ok (.dict [(.str k, r)]) := by
  have hm : und k = k := und_id hd
  unfold und at hm
  simp [ovr, ovrDict, splitKeys, hk, lookupK, putKey, undash, hm, ovrItems, unpack2, getKey, popKey, hr, ovrNew, Except.map]

/-! ## An example: the one of the documentation -/

/-- Digits as a number -/
def exDigits (s : Str) : Option Int :=
  if s ≠ [] ∧ s.all (fun c => decide ('0' ≤ c) && decide (c ≤ '9')) = true then some (s.foldl (fun n c => 10 * n + (c.toNat - 48 : Nat)) 0) else .none

/-- `MyNamedTuple(x: int, y: str)`, `MyNested(nested: MyNamedTuple)` of typed_converter.py:697-702 -/
def exInner : Ty := .named "MyNamedTuple".toList [(['x'], .int, .none), (['y'], .str, .none)]
def exOuter : Ty := .named "MyNested".toList [("nested".toList, exInner, .none)]

def exTexts : Texts where
  numeric s := (exDigits s).isSome
  int := exDigits
  float _ := .none
  looksFloat _ := false
  blank c := c = ' '
  json s := if s = "{x:5,y:bar}".toList then some (.dict [(.str ['x'], .int 5), (.str ['y'], .str "bar".toList)]) else .none
  classes c := if c = "MyNamedTuple".toList then some exInner else if c = "MyNested".toList then some exOuter else .none

def exInnerVal (x : Int) (y : String) : PVal := .named "MyNamedTuple".toList [(['x'], .int x), (['y'], .str y.toList)]
def exOuterVal (x : Int) (y : String) : PVal := .named "MyNested".toList [("nested".toList, exInnerVal x y)]

theorem exOuter_built : Built exTexts Leaf exOuter := by
  refine .named rfl (by decide) (by decide) ?_
  intro f hf
  cases List.mem_singleton.1 hf
  refine .named rfl (by decide) (by decide) ?_
  intro f hf
  simp only [List.mem_cons, List.not_mem_nil, or_false] at hf
  rcases hf with rfl | rfl
  · exact .leaf (.prim .int)
  · exact .leaf (.prim .str)

theorem exOuter_conforms (x : Int) (y : String) : Conforms exEnv (exOuterVal x y) exOuter := by
  refine .named rfl ?_
  intro p hp
  cases List.mem_singleton.1 hp
  refine .named rfl ?_
  intro p hp
  simp only [List.zip_cons_cons, List.zip_nil_left, List.mem_cons, List.not_mem_nil, or_false] at hp
  rcases hp with rfl | rfl
  · exact .int _
  · exact .str _

/-- Both examples of the documentation -/
example : override exEnv exTexts false false 5 (exOuterVal 42 "foo") (.dict [(.str "nested.x".toList, .str ['5'])]) = .ok (exOuterVal 5 "foo") ∧
    override exEnv exTexts false false 5 (exOuterVal 42 "foo") (.dict [(.str "nested".toList, .str "{x:5,y:bar}".toList)]) = .ok (exOuterVal 5 "bar") :=
  ⟨rfl, rfl⟩

/-- The hypotheses of the theorems are met: a place that is not named, and one that is. -/
example : (∀ a b, exEnv.isSub a b = true → a = b) ∧ Built exTexts Leaf exOuter ∧ Conforms exEnv (exOuterVal 42 "foo") exOuter ∧
    Tidy exTexts [(.str "nested.x".toList, .str ['5'])] ∧
    (∀ q x, Named (.dict [(.str "nested.x".toList, .str ['5'])]) q x → ¬ Related exTexts q ["nested".toList, ['y']]) ∧
    place exTexts (exOuterVal 42 "foo") ["nested".toList, ['y']] = some (.str "foo".toList) ∧
    place exTexts (exOuterVal 42 "foo") (dots "nested.x".toList) = some (.int 42) := by
  refine ⟨fun a b h => of_decide_eq_true h, exOuter_built, exOuter_conforms _ _, ⟨?_, by decide, ?_⟩, ?_, rfl, rfl⟩
  · intro e he
    cases List.mem_singleton.1 he
    exact ⟨by simp, _, rfl, by decide⟩
  · intro e he e' he' a ha b hb i hi hi'
    cases List.mem_singleton.1 he
    cases List.mem_singleton.1 he'
    have h1 : ∀ a ∈ keyPath (.str "nested.x".toList), exTexts.int a = .none := by decide
    rw [h1 a ha] at hi
    cases hi
  · intro q x hn hr
    obtain ⟨q', hq', rfl⟩ := names_single hn
    have hk : keyPath (.str "nested.x".toList) = ["nested".toList, ['x']] := by decide
    rw [hk] at hr
    cases hr with
    | cons _ hr =>
      cases hr with
      | cons hs _ =>
        rcases hs with h | ⟨i, h, _⟩
        · exact absurd h (by decide)
        · exact absurd h (by rw [show exTexts.int ['x'] = .none by decide]; simp)

/-! ## Where the code does not do it -/

/-- **C110 is false of the code for `Any`**: the text `False` becomes `True`. -/
theorem C110_violated_any (h : X.numeric "False".toList = false) (strict imports : Bool) (n : Nat) (old : PVal) :
    ovr E X strict imports (n + 1) old (.str "False".toList) (.ty .any) = .ok (.bool true) := by
  simp only [ovr, h]
  rfl

/-- **C110 is false of the code for optional values**: they cannot be set to `None`. The text `None` stays a text or is refused. -/
theorem C110_violated_none (h : X.numeric "None".toList = false) (hb : ∀ c, X.blank c = true → c = ' ') (strict imports : Bool) (n : Nat) (old : PVal) :
    ovr E X strict imports (n + 3) old (.str "None".toList) (.ty (.union [.str, .none])) = .ok (.str "None".toList) ∧
    ovr E X strict imports (n + 3) old (.str "None".toList) (.ty (.union [.int, .none])) = .error .json := by
  have hN : X.blank 'N' = false := by
    cases hx : X.blank 'N' with
    | false => rfl
    | true => exact absurd (hb _ hx) (by decide)
  have he : X.blank 'e' = false := by
    cases hx : X.blank 'e' with
    | false => rfl
    | true => exact absurd (hb _ hx) (by decide)
  have h' : X.numeric ['N', 'o', 'n', 'e'] = false := h
  constructor
  · simp [ovr, unionText]
  · simp [ovr, unionText, hN, he, h', looksJson, List.dropWhile, conv, firstOf, guardJson, isInt, isNone]

/-- **C110 is false of the code for lists that are alternatives of a union** (e.g. optional lists): overriding an element is always an error. -/
theorem C110_violated_optional_list (strict imports : Bool) (n : Nat) (v : PVal) (d : List (Key × PVal)) (t : Ty) :
    ovr E X strict imports (n + 1) v (.dict d) (.ty (.union [.list t, .none])) = .error .other := by
  simp [ovr, pickType, instDeep]

/-- **C110 is false of the code for lists**: no element can be added, although lines 1009-1018 ask for the elements in between. -/
theorem C110_violated_append (strict imports : Bool) (n : Nat) (l : List PVal) (x : PVal) (t : Ty) (k : Str) (i : Nat) (hk : firstDot k = .none)
    (hi : X.int k = some (i : Int)) (hl : l.length ≤ i) (r : PVal) :
    ovr E X strict imports n (.list l) (.dict [(.str k, x)]) (.ty (.list t)) ≠ .ok r := by
  intro h
  cases n with
  | zero => simp [ovr] at h
  | succ n =>
    simp only [ovr, ovrList, splitKeys, hk, lookupK, putKey, Option.isSome_none, Bool.false_eq_true, if_false] at h
    simp only [indexKeys] at h
    split at h
    · cases h
    · rename_i li hli
      split at hli
      · simp only [mapE, indexKey, hi, Except.ok.injEq] at hli
        subst hli
        rw [maxIndex_single] at h
        simp only [elems, beyond, Bool.false_eq_true, if_false] at h
        split at h
        · obtain ⟨ys, hy, _⟩ := map_eq_ok h
          obtain ⟨b, _, hb⟩ := (mapE_ok_mem hy).1 i (List.mem_range.2 (by rw [Int.toNat_natCast]; omega))
          unfold ovrElem at hb
          rw [List.getElem?_eq_none hl] at hb
          cases hb
        · cases h
      · cases hli

/-- **C110 is false of the code for lists**: giving no overrides is an error. -/
theorem C110_violated_empty_list (strict imports : Bool) (n : Nat) (l : List PVal) (t : Ty) :
    ovr E X strict imports (n + 1) (.list l) (.dict []) (.ty (.list t)) = .error .other := by
  simp [ovr, ovrList, splitKeys, indexKeys, mapE, maxIndex]

/-- **C110 is false of the code for dicts**: an entry whose value is not a pair makes every override an error; pairs are taken for entries. -/
theorem C110_violated_dict (strict imports : Bool) (n : Nat) (k : Str) (i : Int) (d : List (Key × PVal)) (r : PVal) :
    ovr E X strict imports (n + 1) (.dict [(.str k, .int i)]) (.dict d) (.ty (.dict .int)) ≠ .ok r ∧
    ovr E X strict imports (n + 1) (.dict [(.str ['a'], .str ['x', 'y'])]) (.dict []) (.ty (.dict .str)) = .ok (.dict [(.str ['x'], .str ['y'])]) := by
  constructor
  · intro h
    simp only [ovr, ovrDict] at h
    cases hs : splitKeys d [] with
    | error e => rw [hs] at h; cases h
    | ok l =>
      rw [hs] at h
      dsimp only at h
      cases hu : undash l with
      | none => rw [hu] at h; cases h
      | some l' =>
        rw [hu] at h
        simp only [ovrItems, unpack2] at h
        cases h
  · simp [ovr, ovrDict, splitKeys, undash, ovrItems, unpack2, getKey, lookupK, putKey, ovrNew, Except.map]

/-- **C110 is false of the code for tuples of fixed size**: the present value decides how a text is read. With 1 in a `Tuple[float]`, 0.5 is
refused. -/
theorem C110_violated_tuple (s : Str) (hs : X.int s = .none) (a : Int) (b : Nat) (hf : X.float s = some (a, b)) (h0 : X.numeric ['0'] = true)
    (hi0 : X.int ['0'] = some 0) (strict imports : Bool) (n : Nat) :
    Conforms E (.tuple [.int 1]) (.tuple [.float]) ∧ ovr E X strict imports (n + 1) (.int 1) (.str s) (.ty .float) = .ok (.float a b) ∧
    ovr E X strict imports (n + 2) (.tuple [.int 1]) (.dict [(.str ['0'], .str s)]) (.ty (.tuple [.float])) = .error .other := by
  refine ⟨.tuple rfl (by intro p hp; cases List.mem_singleton.1 hp; exact .floatInt _), by simp [ovr, ovrFloat, toFloat, orOther, hf], ?_⟩
  have hd : firstDot ['0'] = .none := by decide
  simp [ovr, ovrList, splitKeys, hd, lookupK, putKey, indexKeys, numericKey, h0, mapE, indexKey, hi0, maxIndex, elems, beyond, List.range, List.range.loop,
    ovrElem, atIndex, typeOf, ovrInt, toInt, orOther, hs, Except.map]

/-- **C110 is false of the code for mixed overrides**: a key with dots replaces what a nested dict gives for a place inside of it. -/
theorem C110_violated_mixed (x y : PVal) :
    splitKeys [(.str ['a'], .dict [(.str ['b'], .dict [(.str ['c'], x)])]), (.str "a.b".toList, .dict [(.str ['d'], y)])] [] =
      .ok [(.str ['a'], .dict [(.str ['b'], .dict [(.str ['d'], y)])])] := by
  rfl

/-- **C110 is false of the code for names with `-`**: of two overrides for parts of one field that is written in two ways, only the last one counts. -/
theorem C110_violated_dash (x y : PVal) :
    ∃ l, splitKeys [(.str "a-b.c".toList, x), (.str "a_b.d".toList, y)] [] = .ok l ∧ undash l = some [(.str "a_b".toList, .dict [(.str ['d'], y)])] :=
  ⟨_, rfl, rfl⟩

/-- **C110 is false of the code for derived classes**: in `Union[Base, Derived]` a value of the derived class becomes one of the base class, without the other
fields. -/
def exDerived : Env := { exEnv with isSub := fun a b => a = b || (a = ['D'] && b = ['B']) }
def exUnion : Ty := .union [.data ['B'] [(['x'], .int, .none)], .data ['D'] [(['x'], .int, .none), (['y'], .int, .none)]]

theorem C110_violated_derived : ¬ C110_statement := by
  intro h
  have := h exDerived exTexts false false 3 (.data ['D'] [(['x'], .int 1), (['y'], .int 2)]) (.dict [(.str ['x'], .str ['5'])]) exUnion
    (.data ['B'] [(['x'], .int 5)]) [['y']] (by
      refine .union (t := .data ['D'] [(['x'], .int, .none), (['y'], .int, .none)]) (by simp) (.data rfl ?_)
      intro p hp
      simp only [List.zip_cons_cons, List.zip_nil_left, List.mem_cons, List.not_mem_nil, or_false] at hp
      rcases hp with rfl | rfl <;> exact .int _) rfl (by
      intro q x hn hr
      obtain ⟨q', hq', rfl⟩ := names_single hn
      have hk : keyPath (.str ['x']) = [['x']] := by decide
      rw [hk] at hr
      cases hr with
      | cons hs _ =>
        rcases hs with h | ⟨i, h, _⟩
        · exact absurd h (by decide)
        · exact absurd h (by rw [show exTexts.int ['x'] = .none by decide]; simp))
  cases this

end Verif.Config
