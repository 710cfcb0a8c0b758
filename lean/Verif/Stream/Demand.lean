import Verif.Stream.History

/-! # Stages that take no more samples than they need -/

namespace Verif.Stream

variable {σ κ α β X KX : Type}

/-- `ys` is the beginning of what is made of `xs`, and no shorter beginning of `xs` would have been enough for it. -/
structure OnDemand (F : List α → List β) (xs : List α) (ys : List β) : Prop where
  made : ys <+: F xs
  least : ∀ xs', xs' <+: xs → xs' ≠ xs → (F xs').length < ys.length

/-- Two runs of a wrapper, the first of which has stopped waiting for a sample and has taken no more samples than the second. -/
theorem Wrapper.Trans.after {W : Wrapper Unit α β X KX} {x x1 x2 : X} {es1 es2 : List (Ev α)} {os1 os2 : List (Ev β)} (h1 : W.Trans x es1 os1 x1)
    {f : α → X} {g : X} (hx : W.act x1 = .pull () f g) (h2 : W.Trans x es2 os2 x2) (hp : es1 <+: es2) (hne : es1 ≠ es2) :
    ∃ es3 os3, es2 = es1 ++ es3 ∧ os2 = os1 ++ os3 ∧ W.Trans x1 es3 os3 x2 := by
  induction h1 generalizing es2 os2 with
  | nil => exact ⟨es2, os2, rfl, rfl, h2⟩
  | emit h _ ih =>
    cases h2 with
    | nil => exact absurd (List.prefix_nil.1 hp) hne
    | emit h' h2 =>
      rw [h] at h'; cases h'
      obtain ⟨es3, os3, e1, e2, e3⟩ := ih hx h2 hp hne
      exact ⟨es3, os3, e1, by rw [e2]; rfl, e3⟩
    | halt h' _ | tau h' _ | pullItem h' _ | pullFin h' _ => rw [h] at h'; cases h'
  | halt h _ ih =>
    cases h2 with
    | nil => exact absurd (List.prefix_nil.1 hp) hne
    | halt h' h2 =>
      rw [h] at h'; cases h'
      obtain ⟨es3, os3, e1, e2, e3⟩ := ih hx h2 hp hne
      exact ⟨es3, os3, e1, by rw [e2]; rfl, e3⟩
    | emit h' _ | tau h' _ | pullItem h' _ | pullFin h' _ => rw [h] at h'; cases h'
  | tau h _ ih =>
    cases h2 with
    | nil => exact absurd (List.prefix_nil.1 hp) hne
    | tau h' h2 =>
      rw [h] at h'; cases h'
      exact ih hx h2 hp hne
    | emit h' _ | halt h' _ | pullItem h' _ | pullFin h' _ => rw [h] at h'; cases h'
  | pullItem h _ ih =>
    cases h2 with
    | nil => exact absurd (List.prefix_nil.1 hp) hne
    | pullItem h' h2 =>
      rw [h] at h'; cases h'
      obtain ⟨e0, hp'⟩ := List.cons_prefix_cons.1 hp
      cases e0
      obtain ⟨es3, os3, e1, e2, e3⟩ := ih hx h2 hp' (by rintro rfl; exact hne rfl)
      exact ⟨es3, os3, by rw [e1]; rfl, e2, e3⟩
    | pullFin h' _ =>
      obtain ⟨e0, _⟩ := List.cons_prefix_cons.1 hp
      cases e0
    | emit h' _ | halt h' _ | tau h' _ => rw [h] at h'; cases h'
  | pullFin h _ ih =>
    cases h2 with
    | nil => exact absurd (List.prefix_nil.1 hp) hne
    | pullFin h' h2 =>
      rw [h] at h'; cases h'
      obtain ⟨_, hp⟩ := List.cons_prefix_cons.1 hp
      obtain ⟨es3, os3, e1, e2, e3⟩ := ih hx h2 hp (by rintro rfl; exact hne rfl)
      exact ⟨es3, os3, by rw [e1]; rfl, e2, e3⟩
    | pullItem h' _ =>
      obtain ⟨e0, _⟩ := List.cons_prefix_cons.1 hp
      cases e0
    | emit h' _ | halt h' _ | tau h' _ => rw [h] at h'; cases h'

/-- Two runs with the same samples, the first of which has stopped waiting for a sample: it has shown at least as much. -/
theorem Wrapper.Trans.prefix {W : Wrapper Unit α β X KX} {x x1 x2 : X} {es : List (Ev α)} {os1 os2 : List (Ev β)} (h1 : W.Trans x es os1 x1)
    {f : α → X} {g : X} (hx : W.act x1 = .pull () f g) (h2 : W.Trans x es os2 x2) : os2 <+: os1 := by
  induction h1 generalizing os2 with
  | nil =>
    cases h2 with
    | nil => exact List.prefix_refl _
    | emit h' _ | halt h' _ | tau h' _ => rw [hx] at h'; cases h'
  | emit h _ ih =>
    cases h2 with
    | nil => exact List.nil_prefix
    | emit h' h2 =>
      rw [h] at h'; cases h'
      exact List.cons_prefix_cons.2 ⟨rfl, ih hx h2⟩
    | halt h' _ | tau h' _ | pullItem h' _ | pullFin h' _ => rw [h] at h'; cases h'
  | halt h _ ih =>
    cases h2 with
    | nil => exact List.nil_prefix
    | halt h' h2 =>
      rw [h] at h'; cases h'
      exact List.cons_prefix_cons.2 ⟨rfl, ih hx h2⟩
    | emit h' _ | tau h' _ | pullItem h' _ | pullFin h' _ => rw [h] at h'; cases h'
  | tau h _ ih =>
    cases h2 with
    | nil => exact List.nil_prefix
    | tau h' h2 => rw [h] at h'; cases h'; exact ih hx h2
    | emit h' _ | halt h' _ | pullItem h' _ | pullFin h' _ => rw [h] at h'; cases h'
  | pullItem h _ ih =>
    cases h2 with
    | pullItem h' h2 => rw [h] at h'; cases h'; exact ih hx h2
    | emit h' _ | halt h' _ | tau h' _ => rw [h] at h'; cases h'
  | pullFin h _ ih =>
    cases h2 with
    | pullFin h' h2 => rw [h] at h'; cases h'; exact ih hx h2
    | emit h' _ | halt h' _ | tau h' _ => rw [h] at h'; cases h'

/-- A run that ends with a sample: the last step delivers it. -/
theorem run_inv_last {D : Dataset σ α κ} {W : Wrapper Unit α β X KX} (hr : W.NoReset) {s : σ} {x : X} {b : β} {q : σ × X} (h : Obs (wrap D W).step (s, x) (.item b q)) :
    ∃ es y, D.Run s es q.1 ∧ W.Trans x es [] y ∧ W.act y = .emit b q.2 := by
  replace h := wrap_obs.1 h
  generalize ho : Out.item b q = o at h
  induction h with
  | @emit s x b' x' h => cases ho; exact ⟨[], x, .nil, .nil, h⟩
  | halt h => cases ho
  | raise h => cases ho
  | @tau s x x' o h _ ih =>
    obtain ⟨es, y, h1, h2, h3⟩ := ih ho
    exact ⟨es, y, h1, .tau h h2, h3⟩
  | @reset s x x' o h _ _ => exact absurd h (hr x x')
  | @pullItem s x i f g a s' o h h2 _ ih =>
    obtain ⟨es, y, h1, h3, h4⟩ := ih ho
    exact ⟨.item a :: es, y, .item h2 h1, .pullItem h h3, h4⟩
  | @pullFin s x i f g s' o h h2 _ ih =>
    obtain ⟨es, y, h1, h3, h4⟩ := ih ho
    exact ⟨.fin :: es, y, .fin h2 h1, .pullFin h h3, h4⟩
  | pullErr h h2 => cases ho

theorem Dataset.Items.snoc {D : Dataset σ α κ} {s q : σ} {ys : List α} {y : α} (h : D.Items s (ys ++ [y]) q) :
    ∃ t, D.Items s ys t ∧ Obs D.step t (.item y q) := by
  unfold Dataset.Items at h ⊢
  induction ys generalizing s with
  | nil =>
    cases h with
    | item ho h => cases h; exact ⟨s, .nil, ho⟩
  | cons a ys ih =>
    cases h with
    | item ho h =>
      obtain ⟨t, h1, h2⟩ := ih h
      exact ⟨t, .item ho h1, h2⟩

/-- A stage over an endless dataset, that makes `F xs` of the samples `xs` before it takes another one: what it has delivered is the beginning of what is made of the samples it has taken, and it took
no more than needed. -/
theorem items_onDemand {D : Dataset σ α κ} {W : Wrapper Unit α β X KX} (hr : W.NoReset) (hN : D.NeverEnds) (F : List α → List β)
    (hF : ∀ xs : List α, ∃ x f g, W.Trans W.init (xs.map .item) ((F xs).map .item) x ∧ W.act x = .pull () f g)
    {ys : List β} {q : σ × X} (h : (wrap D W).Items (wrap D W).init ys q) : ∃ xs, D.Items D.init xs q.1 ∧ OnDemand F xs ys := by
  rcases List.eq_nil_or_concat ys with rfl | ⟨ys', y, rfl⟩
  · cases h
    exact ⟨[], .nil, List.nil_prefix, fun xs' h1 h2 => absurd (List.prefix_nil.1 h1) h2⟩
  · rw [List.concat_eq_append] at h ⊢
    obtain ⟨t, h1, h2⟩ := Dataset.Items.snoc h
    obtain ⟨es1, h3, h4⟩ := run_inv hr h1
    obtain ⟨es2, z, h5, h6, h7⟩ := run_inv_last hr h2
    obtain ⟨h8, h9⟩ := Dataset.Run.items_of_neverEnds hN .init (h3.append h5)
    have ht : W.Trans W.init (es1 ++ es2) (ys'.map .item) z := by
      have := h4.append h6
      rw [List.append_nil] at this
      exact this
    have ht' : W.Trans W.init (es1 ++ es2) ((ys' ++ [y]).map .item) q.2 := by
      have := ht.append (.emit h7 .nil)
      simpa using this
    generalize itemsOf (es1 ++ es2) = xs at h8 h9
    rw [h9] at ht ht'
    have inj : ∀ {a b : List β}, a.map Ev.item <+: b.map Ev.item → a <+: b := by
      intro a b h
      obtain ⟨t, ht⟩ := h
      obtain ⟨b1, b2, rfl, e1, e2⟩ := List.map_eq_append_iff.1 ht.symm
      have := List.map_inj_right (f := Ev.item (α := β)) (fun a b e => by cases e; rfl) |>.1 e1
      subst this
      exact List.prefix_append _ _
    refine ⟨xs, h8, ?_, ?_⟩
    · obtain ⟨x, f, g, k1, k2⟩ := hF xs
      exact inj (k1.prefix k2 ht')
    · intro xs' p1 p2
      obtain ⟨x, f, g, k1, k2⟩ := hF xs'
      have p3 : xs'.map Ev.item <+: xs.map Ev.item := by
        obtain ⟨t, rfl⟩ := p1
        rw [List.map_append]
        exact List.prefix_append _ _
      obtain ⟨es3, os3, _, e2, _⟩ := k1.after k2 ht p3 (fun e => p2 ((List.map_inj_right (f := Ev.item (α := α)) (fun a b e => by cases e; rfl)).1 e))
      have := congrArg List.length e2
      simp only [List.length_map, List.length_append] at this
      rw [List.length_append, List.length_singleton]
      omega

/-- The same for the contents of samples. -/
theorem OnDemand.map {α' β' : Type} {F : List α → List β} {F' : List α' → List β'} {u : α → α'} {v : β → β'} (hF : ∀ xs, (F xs).map v = F' (xs.map u))
    {xs : List α} {ys : List β} (h : OnDemand F xs ys) : OnDemand F' (xs.map u) (ys.map v) where
  made := by
    obtain ⟨t, ht⟩ := h.made
    exact ⟨t.map v, by rw [← List.map_append, ht, hF]⟩
  least := by
    rintro xs' ⟨t, ht⟩ hne
    obtain ⟨x1, x2, rfl, rfl, rfl⟩ := List.map_eq_append_iff.1 ht.symm
    rw [← hF, List.length_map, List.length_map]
    refine h.least x1 (List.prefix_append _ _) ?_
    intro e
    apply hne
    rw [← e]

/-- If each element gives at most one, everything that was taken has been used. -/
theorem OnDemand.flatMap_eq {h : α → List β} (h1 : ∀ a, (h a).length ≤ 1) {xs : List α} {ys : List β} (hd : OnDemand (List.flatMap h) xs ys) : ys = xs.flatMap h := by
  rcases List.eq_nil_or_concat xs with rfl | ⟨xs', x, rfl⟩
  · simpa using List.prefix_nil.1 hd.made
  · have h2 := hd.least xs' (by simp) (by
      intro e
      have := congrArg List.length e
      simp at this)
    obtain ⟨t, ht⟩ := hd.made
    have h3 := congrArg List.length ht
    have h4 := h1 x
    rw [List.concat_eq_append, List.flatMap_append, List.length_append, List.length_append] at h3
    simp only [List.flatMap_cons, List.flatMap_nil, List.append_nil] at h3
    have h5 : t = [] := by
      apply List.length_eq_zero_iff.1
      omega
    rw [← ht, h5, List.append_nil]

/-- Passing on. -/
theorem OnDemand.refl (xs : List α) : OnDemand (fun l => l) xs xs where
  made := List.prefix_refl _
  least := by
    rintro xs' ⟨t, rfl⟩ hne
    cases t with
    | nil => simp at hne
    | cons a t => simp

end Verif.Stream
