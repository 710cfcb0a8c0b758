import Verif.Loader.TorchModel

/-! # Invariants of the iterator -/

namespace Verif.Loader

variable {α : Type} {n : Nat} {out : Nat → Nat → Option α}

/-- A worker that has reported its end does so for ever. -/
def Sticky (out : Nat → Nat → Option α) : Prop := ∀ w k, out w k = none → out w (k + 1) = none

theorem Sticky.le (h : Sticky out) {w j k : Nat} (hj : out w j = none) (hk : j ≤ k) : out w k = none := by
  induction hk with
  | refl => exact hj
  | step _ ih => exact h _ _ ih

theorem pos_mod {i w : Nat} (hw : w < n) : (i * n + w) % n = w := by
  rw [Nat.mul_comm, Nat.mul_add_mod, Nat.mod_eq_of_lt hw]

theorem pos_div {i w : Nat} (hw : w < n) : (i * n + w) / n = i := by
  rw [Nat.mul_comm, Nat.mul_add_div (by omega), Nat.div_eq_of_lt hw, Nat.add_zero]

theorem pos_eq (q : Nat) : q / n * n + q % n = q := Nat.div_add_mod' q n

theorem pos_lt {i j w : Nat} (hn : 0 < n) : i * n + w < j * n + w ↔ i < j := by
  rw [Nat.add_lt_add_iff_right, Nat.mul_lt_mul_right hn]

theorem pos_lt' {i q : Nat} (hn : 0 < n) : i * n + q % n < q ↔ i < q / n := by
  conv => lhs; rhs; rw [← pos_eq (n := n) q]
  exact pos_lt hn

theorem pos_le' {i q : Nat} (hn : 0 < n) : q ≤ i * n + q % n ↔ q / n ≤ i := by
  have := pos_lt' (i := i) (q := q) hn
  omega

structure Inv (n : Nat) (out : Nat → Nat → Option α) (s : Sys α) (got : Nat → Nat) (low : Nat) : Prop where
  sorted : s.pending.Pairwise (fun a b => a.pos < b.pos)
  bnd : ∀ t ∈ s.pending, low ≤ t.pos ∧ t.pos < s.cyc
  data : ∀ t ∈ s.pending, t.data = if t.pos / n < got (t.pos % n) then out (t.pos % n) (t.pos / n) else none
  miss : ∀ q, low ≤ q → q < s.cyc →
    (∃ t ∈ s.pending, t.pos = q) ∨ (s.active (q % n) = false ∧ out (q % n) (q / n) = none)
  hist : s.hist = (List.range low).filterMap (fun q => (out (q % n) (q / n)).map (q % n, ·))
  lowcyc : low ≤ s.cyc
  lowgot : ∀ q < low, q / n < got (q % n) ∨ s.active (q % n) = false
  res : ∀ w < n, s.results.filter (fun r => r.1 % n = w) =
    (List.range' (got w) ((s.procs w).made - got w)).map (fun i => (i * n + w, out w i))
  gotmade : ∀ w < n, got w ≤ (s.procs w).made
  queue : ∀ w < n, (s.procs w).ended = false →
    ∃ t, (s.procs w).queue = (List.range' (s.procs w).made t).map (fun i => i * n + w) ∧
      ∀ i, i < (s.procs w).made + t ↔ i * n + w < s.cyc
  ended : ∀ w < n, (s.procs w).ended = true →
    ∃ j, (s.procs w).made = j + 1 ∧ out w j = none ∧ (∀ i < j, out w i ≠ none) ∧ j * n + w < s.cyc
  run : ∀ w < n, (s.procs w).ended = false → ∀ i < (s.procs w).made, out w i ≠ none
  inact : ∀ w < n, s.active w = false → (s.procs w).ended = true ∧ got w = (s.procs w).made
  act : ∀ w < n, s.active w = true → ∀ i < got w, out w i ≠ none

/-- A task of an inactive worker after its last one has no answer. -/
theorem Inv.none_of_inactive {s : Sys α} {got : Nat → Nat} {low : Nat} (hn : 0 < n) (hs : Sticky out)
    (h : Inv n out s got low) {q : Nat} (hq : s.cyc ≤ q) (ha : s.active (q % n) = false) :
    out (q % n) (q / n) = none := by
  have hw := Nat.mod_lt q hn
  obtain ⟨j, -, hj, -, hjc⟩ := h.ended _ hw (h.inact _ hw ha).1
  exact hs.le hj (Nat.le_of_lt ((pos_lt' hn).1 (by omega)))

/-- A position of a running worker past `cyc` is not answered. -/
theorem Inv.got_le {s : Sys α} {got : Nat → Nat} {low : Nat} (hn : 0 < n)
    (h : Inv n out s got low) {q : Nat} (hq : s.cyc ≤ q) : (s.procs (q % n)).made ≤ q / n := by
  have hw := Nat.mod_lt q hn
  cases he : (s.procs (q % n)).ended with
  | false =>
    obtain ⟨t, -, ht⟩ := h.queue _ hw he
    have : ¬ q / n < (s.procs (q % n)).made + t := by
      rw [ht, pos_eq]; omega
    omega
  | true =>
    obtain ⟨j, hm, -, -, hjc⟩ := h.ended _ hw he
    have := (pos_lt' (i := j) (q := q) hn).1 (by omega)
    omega

theorem tryPut_cases (s : Sys α) :
    ((∀ j < n, s.active ((s.cyc + j) % n) = false) ∧ tryPut n s = { s with cyc := s.cyc + n }) ∨
    ∃ j < n, s.active ((s.cyc + j) % n) = true ∧ (∀ i < j, s.active ((s.cyc + i) % n) = false) ∧
      tryPut n s = { s with
        cyc := s.cyc + j + 1
        pending := s.pending ++ [⟨s.cyc + j, none⟩]
        procs := fset s.procs ((s.cyc + j) % n)
          { s.procs ((s.cyc + j) % n) with queue := (s.procs ((s.cyc + j) % n)).queue ++ [s.cyc + j] } } := by
  unfold tryPut
  cases h : (List.range n).find? (fun j => s.active ((s.cyc + j) % n)) with
  | none =>
    refine .inl ⟨fun j hj => ?_, rfl⟩
    have := List.find?_eq_none.1 h j (List.mem_range.2 hj)
    simpa using this
  | some j =>
    have h1 := List.find?_some h
    have h2 := List.mem_range.1 (List.mem_of_find?_eq_some h)
    refine .inr ⟨j, h2, h1, ?_, rfl⟩
    intro i hi
    rw [List.find?_range_eq_some] at h
    simpa using h.2.2 i hi

theorem all_inactive {s : Sys α} (hn : 0 < n) (h : ∀ j < n, s.active ((s.cyc + j) % n) = false) :
    ∀ w < n, s.active w = false := by
  intro w hw
  have h1 := Nat.mod_lt s.cyc hn
  by_cases hc : s.cyc % n ≤ w
  · have := h (w - s.cyc % n) (by omega)
    rwa [Nat.add_mod, Nat.mod_eq_of_lt (a := w - s.cyc % n) (by omega),
      show s.cyc % n + (w - s.cyc % n) = w by omega, Nat.mod_eq_of_lt hw] at this
  · have := h (w + n - s.cyc % n) (by omega)
    rwa [Nat.add_mod, Nat.mod_eq_of_lt (a := w + n - s.cyc % n) (by omega),
      show s.cyc % n + (w + n - s.cyc % n) = w + n by omega, Nat.add_mod_right, Nat.mod_eq_of_lt hw] at this

theorem Inv.tryPut {s : Sys α} {got : Nat → Nat} {low : Nat} (hn : 0 < n) (hs : Sticky out)
    (h : Inv n out s got low) : Inv n out (tryPut n s) got low := by
  rcases tryPut_cases (n := n) s with ⟨ha, he⟩ | ⟨j, hj, ha, hb, he⟩
  · rw [he]
    have hall := all_inactive hn ha
    exact
      { h with
        bnd := fun t ht => ⟨(h.bnd t ht).1, Nat.lt_of_lt_of_le (h.bnd t ht).2 (Nat.le_add_right _ _)⟩
        miss := by
          intro q h1 h2
          by_cases hq : q < s.cyc
          · exact h.miss q h1 hq
          · have := hall _ (Nat.mod_lt q hn)
            exact .inr ⟨this, h.none_of_inactive hn hs (by omega) this⟩
        lowcyc := Nat.le_trans h.lowcyc (Nat.le_add_right _ _)
        queue := by
          intro w hw he
          have := (h.inact w hw (hall w hw)).1
          rw [he] at this; cases this
        ended := by
          intro w hw he
          obtain ⟨j, h1, h2, h2', h3⟩ := h.ended w hw he
          exact ⟨j, h1, h2, h2', Nat.lt_of_lt_of_le h3 (Nat.le_add_right _ _)⟩ }
  · rw [he]
    have hw0 := Nat.mod_lt (s.cyc + j) hn
    have hskip : ∀ q, s.cyc ≤ q → q < s.cyc + j → s.active (q % n) = false := by
      intro q h1 h2
      have := hb (q - s.cyc) (by omega)
      rwa [show s.cyc + (q - s.cyc) = q by omega] at this
    have hproc : ∀ w, (fset s.procs ((s.cyc + j) % n)
          { s.procs ((s.cyc + j) % n) with queue := (s.procs ((s.cyc + j) % n)).queue ++ [s.cyc + j] } w).made = (s.procs w).made ∧
        (fset s.procs ((s.cyc + j) % n)
          { s.procs ((s.cyc + j) % n) with queue := (s.procs ((s.cyc + j) % n)).queue ++ [s.cyc + j] } w).ended = (s.procs w).ended := by
      intro w
      unfold fset
      split
      · next h => subst h; exact ⟨rfl, rfl⟩
      · exact ⟨rfl, rfl⟩
    exact
      { sorted := by
          rw [List.pairwise_append]
          refine ⟨h.sorted, List.pairwise_singleton _ _, ?_⟩
          intro a ha b hb
          rw [List.mem_singleton] at hb
          subst hb
          have := (h.bnd a ha).2
          simp only
          omega
        bnd := by
          intro t ht
          rcases List.mem_append.1 ht with ht | ht
          · have := h.bnd t ht
            simp only
            omega
          · rw [List.mem_singleton] at ht
            subst ht
            have := h.lowcyc
            simp only
            omega
        data := by
          intro t ht
          rcases List.mem_append.1 ht with ht | ht
          · exact h.data t ht
          · rw [List.mem_singleton] at ht
            subst ht
            simp only
            rw [if_neg]
            have h1 := h.got_le hn (q := s.cyc + j) (by omega)
            have h2 := h.gotmade _ hw0
            omega
        miss := by
          intro q h1 h2
          by_cases hq : q < s.cyc
          · rcases h.miss q h1 hq with ⟨t, ht, e⟩ | hm
            · exact .inl ⟨t, List.mem_append.2 (.inl ht), e⟩
            · exact .inr hm
          · by_cases hq' : q = s.cyc + j
            · exact .inl ⟨⟨s.cyc + j, none⟩, List.mem_append.2 (.inr (List.mem_singleton.2 rfl)), hq'.symm⟩
            · simp only at h2
              have := hskip q (by omega) (by omega)
              exact .inr ⟨this, h.none_of_inactive hn hs (by omega) this⟩
        hist := h.hist
        lowcyc := by have := h.lowcyc; simp only; omega
        lowgot := h.lowgot
        res := by
          intro w hw
          rw [(hproc w).1]; exact h.res w hw
        gotmade := by
          intro w hw
          rw [(hproc w).1]; exact h.gotmade w hw
        queue := by
          intro w hw he
          rw [(hproc w).2] at he
          obtain ⟨t, h1, h2⟩ := h.queue w hw he
          by_cases hwe : w = (s.cyc + j) % n
          · refine ⟨t + 1, ?_, ?_⟩
            · rw [(hproc w).1]
              simp only [fset, if_pos hwe]
              rw [← hwe, h1, List.range'_concat, List.map_append, List.map_singleton, Nat.one_mul]
              congr 2
              -- the new position is the next one of this worker
              have hlt : ¬ (s.cyc + j) / n < (s.procs w).made + t := by
                rw [h2, hwe, pos_eq]; omega
              have hle : ¬ (s.procs w).made + t < (s.cyc + j) / n := by
                intro hc
                have h3 : ¬ ((s.procs w).made + t) * n + w < s.cyc := by rw [← h2]; omega
                have h4 : ((s.procs w).made + t) * n + (s.cyc + j) % n < s.cyc + j := (pos_lt' hn).2 hc
                have h5 := hskip _ (by omega : s.cyc ≤ ((s.procs w).made + t) * n + w) (by rw [hwe] at h4 ⊢; exact h4)
                rw [pos_mod hw, hwe] at h5
                rw [ha] at h5; cases h5
              rw [show (s.procs w).made + t = (s.cyc + j) / n by omega, hwe, pos_eq]
            · intro i
              rw [(hproc w).1]
              have hlt : ¬ (s.cyc + j) / n < (s.procs w).made + t := by
                rw [h2, hwe, pos_eq]; omega
              have hle : ¬ (s.procs w).made + t < (s.cyc + j) / n := by
                intro hc
                have h3 : ¬ ((s.procs w).made + t) * n + w < s.cyc := by rw [← h2]; omega
                have h4 : ((s.procs w).made + t) * n + (s.cyc + j) % n < s.cyc + j := (pos_lt' hn).2 hc
                have h5 := hskip _ (by omega : s.cyc ≤ ((s.procs w).made + t) * n + w) (by rw [hwe] at h4 ⊢; exact h4)
                rw [pos_mod hw, hwe] at h5
                rw [ha] at h5; cases h5
              have := (pos_le' (i := i) (q := s.cyc + j) hn)
              rw [← hwe] at this
              have h6 := pos_lt' (i := i) (q := s.cyc + j) hn
              rw [← hwe] at h6
              have h7 : i * n + w = s.cyc + j → i = (s.cyc + j) / n := by
                intro he; rw [← he, pos_div hw]
              have h8 : i = (s.cyc + j) / n → i * n + w = s.cyc + j := by
                intro he; rw [he, hwe, pos_eq]
              simp only
              constructor
              · intro hi
                by_cases hc : i = (s.cyc + j) / n
                · have := h8 hc; omega
                · have := h6.2 (by omega); omega
              · intro hi
                by_cases hc : i * n + w = s.cyc + j
                · have := h7 hc; omega
                · have := h6.1 (by omega); omega
          · refine ⟨t, ?_, ?_⟩
            · rw [(hproc w).1]
              simp only [fset, if_neg hwe]
              exact h1
            · intro i
              rw [(hproc w).1, h2 i]
              simp only
              constructor
              · intro hi; omega
              · intro hi
                rcases Nat.lt_or_ge (i * n + w) s.cyc with h | hc
                · exact h
                exfalso
                have hact : s.active w = true := by
                  cases hx : s.active w with
                  | true => rfl
                  | false => have := (h.inact w hw hx).1; rw [he] at this; cases this
                by_cases hc' : i * n + w = s.cyc + j
                · apply hwe; rw [← hc', pos_mod hw]
                · have := hskip _ hc (by omega)
                  rw [pos_mod hw, hact] at this; cases this
        ended := by
          intro w hw he
          rw [(hproc w).2] at he
          obtain ⟨j', h1, h2, h2', h3⟩ := h.ended w hw he
          refine ⟨j', by rw [(hproc w).1]; exact h1, h2, h2', ?_⟩
          simp only; omega
        run := by
          intro w hw he i hi
          rw [(hproc w).2] at he
          rw [(hproc w).1] at hi
          exact h.run w hw he i hi
        inact := by
          intro w hw he
          rw [(hproc w).1, (hproc w).2]
          exact h.inact w hw he
        act := h.act }


theorem fset_same {β : Type} (f : Nat → β) (i : Nat) (b : β) : fset f i b i = b := if_pos rfl

theorem fset_ne {β : Type} (f : Nat → β) {i j : Nat} (b : β) (h : j ≠ i) : fset f i b j = f j := if_neg h

theorem Inv.work {s : Sys α} {got : Nat → Nat} {low : Nat} (h : Inv n out s got low) {w q : Nat}
    {l : List Nat} (hw : w < n) (hq : (s.procs w).queue = q :: l) (he : (s.procs w).ended = false) :
    Inv n out
        { s with
          procs := fset s.procs w ⟨l, (s.procs w).made + 1, (out w (s.procs w).made).isNone⟩
          results := s.results ++ [(q, out w (s.procs w).made)] } got low := by
  obtain ⟨t, h1, h2⟩ := h.queue w hw he
  cases t with
  | zero => rw [h1] at hq; simp at hq
  | succ t =>
  rw [h1, List.range'_succ, List.map_cons] at hq
  have hq1 : (s.procs w).made * n + w = q := (List.cons.inj hq).1
  have hq2 : (List.range' ((s.procs w).made + 1) t).map (fun i => i * n + w) = l := (List.cons.inj hq).2
  exact
    { h with
      res := by
        intro v hv
        rw [List.filter_append]
        by_cases hvw : v = w
        · subst hvw
          rw [h.res v hv]
          simp only [fset_same]
          have := h.gotmade v hv
          rw [List.filter_cons, if_pos (by simp [← hq1, pos_mod hv]), List.filter_nil,
            show (s.procs v).made + 1 - got v = ((s.procs v).made - got v) + 1 by omega, List.range'_concat,
            List.map_append, List.map_singleton]
          congr 3
          all_goals rw [Nat.one_mul, show got v + ((s.procs v).made - got v) = (s.procs v).made by omega]
          exact hq1.symm
        · rw [h.res v hv]
          simp only [fset_ne _ _ hvw]
          rw [List.filter_cons, if_neg (by simp [← hq1, pos_mod hw]; omega), List.filter_nil, List.append_nil]
      gotmade := by
        intro v hv
        by_cases hvw : v = w
        · subst hvw; simp only [fset_same]; exact Nat.le_succ_of_le (h.gotmade v hv)
        · simp only [fset_ne _ _ hvw]; exact h.gotmade v hv
      queue := by
        intro v hv hve
        by_cases hvw : v = w
        · subst hvw
          simp only [fset_same] at hve ⊢
          refine ⟨t, hq2.symm, fun i => ?_⟩
          rw [← h2 i]; omega
        · simp only [fset_ne _ _ hvw] at hve ⊢
          exact h.queue v hv hve
      ended := by
        intro v hv hve
        by_cases hvw : v = w
        · subst hvw
          simp only [fset_same] at hve ⊢
          refine ⟨_, rfl, by simpa using hve, h.run v hv he, ?_⟩
          rw [← h2]; omega
        · simp only [fset_ne _ _ hvw] at hve ⊢
          exact h.ended v hv hve
      run := by
        intro v hv hve i hi
        by_cases hvw : v = w
        · subst hvw
          simp only [fset_same] at hve hi
          by_cases hc : i = (s.procs v).made
          · subst hc
            intro hx; rw [hx] at hve; cases hve
          · exact h.run v hv he i (by omega)
        · simp only [fset_ne _ _ hvw] at hve hi
          exact h.run v hv hve i hi
      inact := by
        intro v hv hva
        by_cases hvw : v = w
        · subst hvw
          have := (h.inact v hv hva).1
          rw [he] at this; cases this
        · simp only [fset_ne _ _ hvw]
          exact h.inact v hv hva }

theorem Inv.discard {s : Sys α} {got : Nat → Nat} {low : Nat} (h : Inv n out s got low) {w : Nat}
    {l : List Nat} (he : (s.procs w).ended = true) :
    Inv n out { s with procs := fset s.procs w { s.procs w with queue := l } } got low := by
  have hproc : ∀ v, (fset s.procs w { s.procs w with queue := l } v).made = (s.procs v).made ∧
      (fset s.procs w { s.procs w with queue := l } v).ended = (s.procs v).ended := by
    intro v
    unfold fset
    split
    · next h => subst h; exact ⟨rfl, rfl⟩
    · exact ⟨rfl, rfl⟩
  exact
    { h with
      res := fun v hv => by simp only [(hproc v).1]; exact h.res v hv
      gotmade := fun v hv => by simp only [(hproc v).1]; exact h.gotmade v hv
      queue := by
        intro v hv hve
        have hvw : v ≠ w := by
          rintro rfl
          simp only [fset_same] at hve
          rw [he] at hve; cases hve
        simp only [fset_ne _ _ hvw] at hve ⊢
        exact h.queue v hv hve
      ended := fun v hv hve => by
        simp only [(hproc v).2] at hve
        simp only [(hproc v).1]; exact h.ended v hv hve
      run := fun v hv hve i hi => by
        simp only [(hproc v).2] at hve
        simp only [(hproc v).1] at hi; exact h.run v hv hve i hi
      inact := fun v hv hva => by
        simp only [(hproc v).1, (hproc v).2]; exact h.inact v hv hva }

/-- The oldest task is done. -/
theorem Inv.pop {s : Sys α} {got : Nat → Nat} {low : Nat} (h : Inv n out s got low) {t : Task α}
    {rest : List (Task α)} (hp : s.pending = t :: rest) (ph : Phase)
    (hd : t.pos / n < got (t.pos % n) ∨ s.active (t.pos % n) = false) :
    Inv n out { s with pending := rest, phase := ph,
                       hist := s.hist ++ ((out (t.pos % n) (t.pos / n)).map (t.pos % n, ·)).toList } got (t.pos + 1) := by
  have hs := h.sorted
  rw [hp, List.pairwise_cons] at hs
  have hmem : t ∈ s.pending := by rw [hp]; exact List.mem_cons_self ..
  have hsub : ∀ x ∈ rest, x ∈ s.pending := fun x hx => by rw [hp]; exact List.mem_cons_of_mem _ hx
  have hskip : ∀ q, low ≤ q → q < t.pos → s.active (q % n) = false ∧ out (q % n) (q / n) = none := by
    intro q h1 h2
    rcases h.miss q h1 (Nat.lt_trans h2 (h.bnd t hmem).2) with ⟨x, hx, hxe⟩ | hm
    · exfalso
      rw [hp] at hx
      rcases List.mem_cons.1 hx with rfl | hx
      · omega
      · have := hs.1 x hx; omega
    · exact hm
  exact
    { h with
      sorted := hs.2
      bnd := fun x hx => ⟨hs.1 x hx, (h.bnd x (hsub x hx)).2⟩
      data := fun x hx => h.data x (hsub x hx)
      miss := by
        intro q h1 h2
        have := (h.bnd t hmem).1
        rcases h.miss q (by omega) h2 with ⟨x, hx, hxe⟩ | hm
        · rw [hp] at hx
          rcases List.mem_cons.1 hx with rfl | hx
          · omega
          · exact .inl ⟨x, hx, hxe⟩
        · exact .inr hm
      hist := by
        have hlow := (h.bnd t hmem).1
        simp only
        rw [List.range_succ, List.filterMap_append, h.hist]
        congr 1
        · -- nothing between low and t
          obtain ⟨d, hd⟩ := Nat.exists_eq_add_of_le hlow
          have : ∀ d, low + d ≤ t.pos → (List.range (low + d)).filterMap (fun q => (out (q % n) (q / n)).map (q % n, ·)) =
              (List.range low).filterMap (fun q => (out (q % n) (q / n)).map (q % n, ·)) := by
            intro d
            induction d with
            | zero => intro _; rfl
            | succ d ih =>
              intro hle
              rw [← Nat.add_assoc, List.range_succ, List.filterMap_append, ih (by omega)]
              simp [(hskip (low + d) (by omega) (by omega)).2]
          rw [hd, this d (by omega)]
      lowcyc := (h.bnd t hmem).2
      lowgot := by
        intro q hq
        rcases Nat.lt_trichotomy q t.pos with h1 | h1 | h1
        · by_cases h2 : q < low
          · exact h.lowgot q h2
          · exact .inr (hskip q (by omega) h1).1
        · subst h1; exact hd
        · omega }

/-- What the first answer in the result queue is. -/
theorem Inv.head {s : Sys α} {got : Nat → Nat} {low : Nat} (hn : 0 < n) (h : Inv n out s got low) {r : Nat}
    {x : Option α} {res : List (Nat × Option α)} (hr : s.results = (r, x) :: res) :
    r = got (r % n) * n + r % n ∧ out (r % n) (got (r % n)) = x ∧ got (r % n) < (s.procs (r % n)).made ∧
      s.active (r % n) = true ∧ r < s.cyc ∧ low ≤ r ∧ (∃ t ∈ s.pending, t.pos = r) ∧
      res.filter (fun y => y.1 % n = r % n) =
        (List.range' (got (r % n) + 1) ((s.procs (r % n)).made - (got (r % n) + 1))).map
          (fun i => (i * n + r % n, out (r % n) i)) := by
  have hw := Nat.mod_lt r hn
  have h1 := h.res _ hw
  rw [hr, List.filter_cons, if_pos (by simp)] at h1
  have h2 : got (r % n) < (s.procs (r % n)).made := by
    rcases Nat.lt_or_ge (got (r % n)) (s.procs (r % n)).made with h | h
    · exact h
    · rw [show (s.procs (r % n)).made - got (r % n) = 0 by omega] at h1
      simp at h1
  rw [show (s.procs (r % n)).made - got (r % n) = ((s.procs (r % n)).made - (got (r % n) + 1)) + 1 by omega,
    List.range'_succ, List.map_cons] at h1
  have h3 := (List.cons.inj h1).1
  have h4 := (List.cons.inj h1).2
  have h5 : r = got (r % n) * n + r % n := congrArg Prod.fst h3
  have h6 : x = out (r % n) (got (r % n)) := congrArg Prod.snd h3
  have h7 : s.active (r % n) = true := by
    cases hx : s.active (r % n) with
    | true => rfl
    | false => have := (h.inact _ hw hx).2; omega
  have h8 : r < s.cyc := by
    cases he : (s.procs (r % n)).ended with
    | false =>
      obtain ⟨t, -, ht⟩ := h.queue _ hw he
      rw [h5, ← ht]; omega
    | true =>
      obtain ⟨j, hm, -, -, hj⟩ := h.ended _ hw he
      have : got (r % n) * n ≤ j * n := Nat.mul_le_mul_right _ (by omega)
      omega
  have hdiv : r / n = got (r % n) := by
    have := congrArg (· / n) h5
    simp only [pos_div hw] at this
    exact this
  have h9 : low ≤ r := by
    rcases Nat.lt_or_ge r low with hlt | h
    · rcases h.lowgot r hlt with h | h
      · omega
      · rw [h7] at h; cases h
    · exact h
  refine ⟨h5, h6.symm, h2, h7, h8, h9, ?_, h4⟩
  rcases h.miss r h9 h8 with h | h
  · exact h
  · rw [h7] at h; cases h.1

theorem Inv.recvResults {s : Sys α} {got : Nat → Nat} {low : Nat} (hn : 0 < n) (h : Inv n out s got low) {r : Nat}
    {x : Option α} {res : List (Nat × Option α)} (hr : s.results = (r, x) :: res) : ∀ w < n,
    res.filter (fun y => y.1 % n = w) =
      (List.range' (fset got (r % n) (got (r % n) + 1) w) ((s.procs w).made - fset got (r % n) (got (r % n) + 1) w)).map
        (fun i => (i * n + w, out w i)) := by
  intro w hw
  by_cases hwr : w = r % n
  · subst hwr
    rw [fset_same]
    exact (h.head hn hr).2.2.2.2.2.2.2
  · rw [fset_ne _ _ hwr, ← h.res w hw, hr, List.filter_cons, if_neg (by simp; omega)]

theorem fset_got_le (got : Nat → Nat) (w v : Nat) : got v ≤ fset got w (got w + 1) v := by
  unfold fset
  split
  · next h => subst h; omega
  · omega

/-- Data was received and stored. -/
theorem Inv.recv {s : Sys α} {got : Nat → Nat} {low : Nat} (hn : 0 < n) (h : Inv n out s got low) {r : Nat}
    {a : α} {res : List (Nat × Option α)} (hr : s.results = (r, some a) :: res) :
    Inv n out { s with results := res, pending := storeData r a s.pending }
      (fset got (r % n) (got (r % n) + 1)) low := by
  obtain ⟨h1, h2, h3, h4, h5, h6, h7, h8⟩ := h.head hn hr
  have hw := Nat.mod_lt r hn
  have hmem : ∀ t ∈ storeData r a s.pending, ∃ t' ∈ s.pending, t.pos = t'.pos ∧
      t.data = if t'.pos = r then some a else t'.data := by
    intro t ht
    obtain ⟨t', ht', e⟩ := List.mem_map.1 ht
    refine ⟨t', ht', ?_, ?_⟩
    · rw [← e]; split <;> rfl
    · rw [← e]; split <;> rfl
  have hmem' : ∀ t' ∈ s.pending, ∃ t ∈ storeData r a s.pending, t.pos = t'.pos := by
    intro t' ht'
    refine ⟨_, List.mem_map.2 ⟨t', ht', rfl⟩, ?_⟩
    split <;> rfl
  exact
    { h with
      sorted := by
        unfold storeData
        simp only
        rw [List.pairwise_map]
        refine h.sorted.imp ?_
        intro x y hxy
        split <;> split <;> exact hxy
      bnd := by
        intro t ht
        obtain ⟨t', ht', e, -⟩ := hmem t ht
        rw [e]; exact h.bnd t' ht'
      data := by
        intro t ht
        obtain ⟨t', ht', e, ed⟩ := hmem t ht
        rw [e, ed]
        split
        · next hc =>
          rw [hc, fset_same, if_pos, ← h2]
          · congr 1
            conv => rhs; rw [h1]
            rw [pos_div hw]
          · conv => lhs; rw [h1]
            rw [pos_div hw]; omega
        · next hc =>
          rw [h.data t' ht']
          by_cases hv : t'.pos % n = r % n
          · rw [hv, fset_same]
            have : t'.pos / n ≠ got (r % n) := by
              intro hx
              apply hc
              rw [← pos_eq (n := n) t'.pos, hx, hv]; exact h1.symm
            have h9 : t'.pos / n < got (r % n) + 1 ↔ t'.pos / n < got (r % n) := by omega
            simp only [h9]
          · rw [fset_ne _ _ hv]
      miss := by
        intro q hq1 hq2
        rcases h.miss q hq1 hq2 with ⟨t', ht', e⟩ | hm
        · obtain ⟨t, ht, e'⟩ := hmem' t' ht'
          exact .inl ⟨t, ht, e'.trans e⟩
        · exact .inr hm
      lowgot := fun q hq => (h.lowgot q hq).imp_left (fun h => Nat.lt_of_lt_of_le h (fset_got_le _ _ _))
      res := h.recvResults hn hr
      gotmade := by
        intro w hw'
        by_cases hwr : w = r % n
        · subst hwr; rw [fset_same]; exact h3
        · rw [fset_ne _ _ hwr]; exact h.gotmade w hw'
      inact := by
        intro w hw' ha
        by_cases hwr : w = r % n
        · subst hwr; exact absurd (h4.symm.trans ha) (by simp)
        · rw [fset_ne _ _ hwr]; exact h.inact w hw' ha
      act := by
        intro w hw' ha i hi
        by_cases hwr : w = r % n
        · subst hwr
          rw [fset_same] at hi
          by_cases hc : i = got (r % n)
          · subst hc; rw [h2]; simp
          · exact h.act _ hw' ha i (by omega)
        · rw [fset_ne _ _ hwr] at hi
          exact h.act w hw' ha i hi }

/-- The end of a worker was received. -/
theorem Inv.recvStop {s : Sys α} {got : Nat → Nat} {low : Nat} (hn : 0 < n) (h : Inv n out s got low) {r : Nat}
    {res : List (Nat × Option α)} (hr : s.results = (r, none) :: res) :
    Inv n out { s with results := res, active := fset s.active (r % n) false }
      (fset got (r % n) (got (r % n) + 1)) low := by
  obtain ⟨h1, h2, h3, h4, h5, h6, h7, h8⟩ := h.head hn hr
  have hw := Nat.mod_lt r hn
  have hfalse : ∀ v, s.active v = false → fset s.active (r % n) false v = false := by
    intro v hv; unfold fset; split
    · rfl
    · exact hv
  exact
    { h with
      data := by
        intro t ht
        rw [h.data t ht]
        by_cases hv : t.pos % n = r % n
        · rw [hv, fset_same]
          by_cases hc : t.pos / n = got (r % n)
          · rw [if_neg (by omega), if_pos (by omega), hc, h2]
          · have h9 : t.pos / n < got (r % n) + 1 ↔ t.pos / n < got (r % n) := by omega
            simp only [h9]
        · rw [fset_ne _ _ hv]
      miss := fun q hq1 hq2 => (h.miss q hq1 hq2).imp_right (fun hm => ⟨hfalse _ hm.1, hm.2⟩)
      lowgot := by
        intro q hq
        rcases h.lowgot q hq with h | h
        · exact .inl (Nat.lt_of_lt_of_le h (fset_got_le _ _ _))
        · exact .inr (hfalse _ h)
      res := h.recvResults hn hr
      gotmade := by
        intro w hw'
        by_cases hwr : w = r % n
        · subst hwr; rw [fset_same]; exact h3
        · rw [fset_ne _ _ hwr]; exact h.gotmade w hw'
      inact := by
        intro w hw' ha
        by_cases hwr : w = r % n
        · subst hwr
          rw [fset_same]
          cases he : (s.procs (r % n)).ended with
          | false => exact absurd h2 (h.run _ hw he _ h3)
          | true =>
            refine ⟨rfl, ?_⟩
            obtain ⟨j, hm, hj, hj', -⟩ := h.ended _ hw he
            rcases Nat.lt_or_ge (got (r % n)) j with hlt | hge
            · exact absurd h2 (hj' _ hlt)
            · simp only; omega
        · simp only [fset_ne _ _ hwr] at ha ⊢
          exact h.inact w hw' ha
      act := by
        intro w hw' ha i hi
        by_cases hwr : w = r % n
        · subst hwr; simp only [fset_same] at ha; cases ha
        · simp only [fset_ne _ _ hwr] at ha hi
          exact h.act w hw' ha i hi }

end Verif.Loader
