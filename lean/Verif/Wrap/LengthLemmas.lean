import Verif.Wrap.LengthModel
import Verif.Stream.Lemmas
import Mathlib.Algebra.BigOperators.Group.Finset.Basic
import Mathlib.Algebra.BigOperators.Intervals

/-! # Lemmas about Limit, Epochize and Repeat -/

namespace Verif.Stream

variable {σ κ α : Type} {D : Dataset σ α κ} {lim len : Nat} {ra : Bool} {rs : List Key → Option α} {has : Bool}

theorem localShare_sum (length nw : Nat) :
    (∑ w ∈ Finset.range (max nw 1), localShare length nw w) = length := by
  by_cases h : nw ≤ 1
  · simp [localShare, h]
  · have hm : max nw 1 = nw := by omega
    rw [hm]
    have hpos : 0 < nw := by omega
    have key : ∀ (n q r : Nat), (∑ w ∈ Finset.range n, (q + if w < r then 1 else 0)) = n * q + min n r := by
      intro n q r
      induction n with
      | zero => simp
      | succ n ih =>
        rw [Finset.sum_range_succ, ih, Nat.add_mul, Nat.one_mul]
        split <;> omega
    have : ∀ w, localShare length nw w = length / nw + if w < length % nw then 1 else 0 := by
      intro w; simp [localShare, h]
    simp only [this]
    rw [key, Nat.min_eq_right (Nat.le_of_lt (Nat.mod_lt _ hpos))]
    exact Nat.div_add_mod length nw

/-! ### Limit -/

theorem limit_inv (r : Bool) (hr : r = true) :
    WInv (Source.single D) (limitW lim ra rs has) (D.Paused r)
      (fun x => x.off ≤ lim ∧ ∀ a, x.ctl = .got a → D.Yields r a)
      (fun x => x.off ≤ lim ∧ (x.ctl = .start ∨ x.ctl = .loop)) := by
  constructor
  · rintro x ⟨h1, h2 | h2⟩ <;> exact ⟨h1, fun a h => by rw [h2] at h; cases h⟩
  · rintro ⟨n, c⟩ b x' ⟨h1, h2⟩ h
    cases c <;> simp only [limitW] at h <;> try (first | cases h | (split at h <;> cases h))
    next hlt => exact ⟨hlt, .inr rfl⟩
  · rintro ⟨n, c⟩ x' ⟨h1, h2⟩ h
    cases c <;> simp only [limitW] at h <;> try (first | cases h | (split at h <;> cases h))
    exact ⟨h1, .inl rfl⟩
  · rintro ⟨n, c⟩ x' ⟨h1, h2⟩ h
    cases c <;> simp only [limitW] at h <;> first | cases h | (split at h <;> cases h)
    all_goals exact ⟨h1, by intro a h; cases h⟩
  · rintro ⟨n, c⟩ x' ⟨h1, h2⟩ h
    cases c <;> simp only [limitW] at h <;> first | (split at h <;> cases h) | cases h
    · exact ⟨Nat.zero_le _, by intro a h; cases h⟩
    · exact ⟨Nat.zero_le _, by intro a h; cases h⟩
    · exact ⟨h1, by intro a h; cases h⟩
  · intro x x' s _ _ hs
    exact .reset hr hs
  · rintro ⟨n, c⟩ i f g ⟨h1, h2⟩ h s a s' hs ho
    cases c <;> simp only [limitW] at h <;> first | cases h | (split at h <;> cases h)
    exact ⟨⟨h1, by intro b h; cases h; exact ⟨s, s', hs, ho⟩⟩, .item hs ho⟩
  · rintro ⟨n, c⟩ i f g ⟨h1, h2⟩ h s s' hs ho
    cases c <;> simp only [limitW] at h <;> first | cases h | (split at h <;> cases h)
    exact ⟨⟨h1, by intro b h; cases h⟩, .fin hs ho⟩

theorem limit_paused {p : σ × LimX α} (h : (wrap D (limitW lim ra rs has)).Paused true p) :
    D.Paused true p.1 ∧ (p.2.off ≤ lim ∧ (p.2.ctl = .start ∨ p.2.ctl = .loop)) :=
  wrap_paused (limit_inv true rfl) ⟨Nat.zero_le _, .inl rfl⟩ (fun _ h => ⟨h.1, .inl rfl⟩)
    (fun _ _ _ => ⟨Nat.zero_le _, .inl rfl⟩) h

/-- The end of the pass: both resets, then the fresh generator. -/
theorem limit_finish_run {s : σ} {n : Nat} :
    ∃ s', (s' = D.reset s ∨ s' = D.reset (D.reset s)) ∧
      Obs (wrap D (limitW lim ra rs has)).step (s, ⟨n, .finish⟩) (.fin (s', ⟨0, .start⟩)) := by
  cases hra : ra with
  | true =>
    exact ⟨_, .inr rfl, wrap_obs.2 (.reset (W := limitW lim true rs has) (x := ⟨n, .finish⟩) rfl
      (.reset (W := limitW lim true rs has) (x := ⟨0, .again⟩) rfl (.halt rfl)))⟩
  | false =>
    exact ⟨_, .inl rfl, wrap_obs.2 (.reset (W := limitW lim false rs has) (x := ⟨n, .finish⟩) rfl (.halt rfl))⟩

/-- From the loop, `xs` fit into the rest of the limit. -/
theorem limit_loop_trans (xs : List α) (n : Nat) (h : n + xs.length ≤ lim) :
    (limitW lim ra rs has).Trans ⟨n, .loop⟩ (xs.map .item) (xs.map .item) ⟨n + xs.length, .loop⟩ := by
  induction xs generalizing n with
  | nil => exact .nil
  | cons a xs ih =>
    have hn : n < lim := by simp at h; omega
    have := ih (n + 1) (by simp at h; omega)
    rw [show n + 1 + xs.length = n + (a :: xs).length by simp; omega] at this
    exact .pullItem (W := limitW lim ra rs has) (x := ⟨n, .loop⟩) rfl
      (.emit (W := limitW lim ra rs has) (x := ⟨n, .got a⟩) (x' := ⟨n + 1, .loop⟩)
        (by simp only [limitW, hn, if_true]) this)

/-! ### Epochize -/

theorem epochize_noReset : (epochizeW len rs has).NoReset := by
  rintro ⟨n, c⟩ x' h
  cases c <;> simp only [epochizeW] at h <;> first | cases h | (split at h <;> cases h)

theorem epochize_inv (r : Bool) :
    WInv (Source.single D) (epochizeW len rs has) (D.Paused r)
      (fun x => match x.ctl with
        | .start => x.off < len ∨ x.off = 0
        | .next i => i ≤ len ∧ (0 < len) ∧ x.off = i % len
        | .pulling i => i < len ∧ x.off = (i + 1) % len
        | .got a i => i < len ∧ x.off = (i + 1) % len ∧ D.Yields r a)
      (fun x => match x.ctl with
        | .start => x.off < len ∨ x.off = 0
        | .next i => i ≤ len ∧ (0 < len) ∧ x.off = i % len
        | _ => False) := by
  refine WInv.mk' epochize_noReset ?_ ?_ ?_ ?_ ?_ ?_
  · rintro ⟨n, c⟩ hx
    cases c <;> simp_all
  · rintro ⟨n, c⟩ b x' hx h
    cases c <;> simp only [epochizeW] at h <;> try (first | cases h | (split at h <;> cases h))
    simp only at hx ⊢
    exact ⟨hx.1, by omega, hx.2.1⟩
  · rintro ⟨n, c⟩ x' hx h
    cases c <;> simp only [epochizeW] at h <;> try (first | cases h | (split at h <;> cases h))
    · exact hx
    · next i hi =>
      simp only at hx ⊢
      have : i = len := by omega
      rw [hx.2.2, this, Nat.mod_self]; exact .inr rfl
  · rintro ⟨n, c⟩ x' hx h
    cases c <;> simp only [epochizeW] at h <;> try (first | cases h | (split at h <;> cases h))
    · next hn => simp only; exact ⟨by omega, by omega, (Nat.mod_eq_of_lt hn).symm⟩
    · next i hi => exact ⟨hi, rfl⟩
  · rintro ⟨n, c⟩ i f g hx h a ha
    cases c <;> simp only [epochizeW] at h <;> try (first | cases h | (split at h <;> cases h))
    exact ⟨hx.1, hx.2, ha⟩
  · rintro ⟨n, c⟩ i f g hx h hn
    cases c <;> simp only [epochizeW] at h <;> try (first | cases h | (split at h <;> cases h))
    exact hx

theorem epochize_paused {r : Bool} {p : σ × EpoX α} (h : (wrap D (epochizeW len rs has)).Paused r p) :
    D.Paused r p.1 ∧ (match p.2.ctl with
        | .start => p.2.off < len ∨ p.2.off = 0
        | .next i => i ≤ len ∧ (0 < len) ∧ p.2.off = i % len
        | _ => False) := by
  refine wrap_paused (epochize_inv r) (.inr rfl) ?_ (fun _ _ _ => .inr rfl) h
  rintro ⟨n, c⟩ hx
  cases c with
  | start => exact hx
  | next i => exact .inl (by simp only at hx; simp only [epochizeW]; rw [hx.2.2]; exact Nat.mod_lt _ hx.2.1)
  | pulling i => exact absurd hx id
  | got a i => exact absurd hx id

/-- Samples of the inner stream pass through, ends of inner passes are swallowed. -/
theorem epochize_trans_inv {x x' : EpoX α} {es : List (Ev α)} {os : List (Ev α)}
    (h : (epochizeW len rs has).Trans x es os x') :
    (match x.ctl with | .got a _ => a :: itemsOf es | _ => itemsOf es) =
      itemsOf os ++ (match x'.ctl with | .got a _ => [a] | _ => []) := by
  induction h with
  | @nil x => cases x.ctl <;> simp [itemsOf]
  | @emit x b x1 es os x2 h _ ih =>
    obtain ⟨n, c⟩ := x
    cases c <;> simp only [epochizeW] at h <;> try (first | cases h | (split at h <;> cases h))
    simp only [itemsOf, List.cons_append] at ih ⊢
    rw [ih]
  | @halt x x1 es os x2 h _ ih =>
    obtain ⟨n, c⟩ := x
    cases c <;> simp only [epochizeW] at h <;> try (first | cases h | (split at h <;> cases h))
    all_goals simpa [itemsOf] using ih
  | @tau x x1 es os x2 h _ ih =>
    obtain ⟨n, c⟩ := x
    cases c <;> simp only [epochizeW] at h <;> try (first | cases h | (split at h <;> cases h))
    all_goals simpa [itemsOf] using ih
  | @pullItem x f g a es os x2 h _ ih =>
    obtain ⟨n, c⟩ := x
    cases c <;> simp only [epochizeW] at h <;> try (first | cases h | (split at h <;> cases h))
    simpa [itemsOf] using ih
  | @pullFin x f g es os x2 h _ ih =>
    obtain ⟨n, c⟩ := x
    cases c <;> simp only [epochizeW] at h <;> try (first | cases h | (split at h <;> cases h))
    simpa [itemsOf] using ih

/-- How many samples come before the next end of epoch. -/
theorem epochize_count {x x' : EpoX α} {es os : List (Ev α)}
    (h : (epochizeW len rs has).Trans x es os x') (ys : List α) (ho : os = passEvs ys)
    (hc : x' = ⟨x'.off, .start⟩) :
    match x.ctl with
    | .start => x.off + ys.length = max x.off len
    | .next i => i + ys.length = max i len
    | .pulling i => i + ys.length = max (i + 1) len
    | .got _ i => i + ys.length = max (i + 1) len := by
  induction h generalizing ys with
  | @nil x => cases ys <;> cases ho
  | @emit x b x1 es os x2 h _ ih =>
    obtain ⟨n, c⟩ := x
    cases c <;> simp only [epochizeW] at h <;> try (first | cases h | (split at h <;> cases h))
    cases ys with
    | nil => cases ho
    | cons y ys =>
      simp only [passEvs, List.map_cons, List.cons_append, List.cons.injEq] at ho
      have := ih ys ho.2 hc
      simp only [List.length_cons] at this ⊢
      omega
  | @halt x x1 es os x2 h hrest ih =>
    obtain ⟨n, c⟩ := x
    have hys : ys = [] := by
      cases ys with
      | nil => rfl
      | cons => cases ho
    subst hys
    cases c <;> simp only [epochizeW] at h <;> try (first | cases h | (split at h <;> cases h))
    all_goals simp only [List.length_nil]; omega
  | @tau x x1 es os x2 h _ ih =>
    obtain ⟨n, c⟩ := x
    have := ih ys ho hc
    cases c <;> simp only [epochizeW] at h <;> try (first | cases h | (split at h <;> cases h))
    all_goals simp only at this ⊢; omega
  | @pullItem x f g a es os x2 h _ ih =>
    obtain ⟨n, c⟩ := x
    have := ih ys ho hc
    cases c <;> simp only [epochizeW] at h <;> try (first | cases h | (split at h <;> cases h))
    simpa using this
  | @pullFin x f g es os x2 h _ ih =>
    obtain ⟨n, c⟩ := x
    have := ih ys ho hc
    cases c <;> simp only [epochizeW] at h <;> try (first | cases h | (split at h <;> cases h))
    simpa using this

/-- An epoch ends at offset 0 with a fresh generator. -/
theorem epochize_fin {r : Bool} {s : σ} {x : EpoX α} {o : Out (σ × EpoX α) α}
    (h : WObs (Source.single D) (epochizeW len rs has) s x o) (hs : D.Paused r s)
    (hx : match x.ctl with
        | .start => x.off < len ∨ x.off = 0
        | .next i => i ≤ len ∧ (0 < len) ∧ x.off = i % len
        | .pulling i => i < len ∧ x.off = (i + 1) % len
        | .got a i => i < len ∧ x.off = (i + 1) % len ∧ D.Yields r a) (q : σ × EpoX α) (ho : o = .fin q) :
    q.2 = ⟨0, .start⟩ := by
  have H := epochize_inv (D := D) (len := len) (rs := rs) (has := has) r
  induction h with
  | emit h => cases ho
  | @halt s x x' h =>
    cases ho
    obtain ⟨n, c⟩ := x
    cases c <;> simp only [epochizeW] at h <;> try (first | cases h | (split at h <;> cases h))
    · next hn => simp only at hx ⊢; rcases hx with hx | hx
                 · exact absurd hx hn
                 · rw [hx]
    · next i hi =>
      simp only at hx ⊢
      have : i = len := by omega
      rw [hx.2.2, this, Nat.mod_self]
  | raise h => cases ho
  | tau h _ ih => exact ih hs (H.tau _ _ hx h) ho
  | reset h => exact absurd h (epochize_noReset _ _)
  | pullItem h h2 _ ih =>
    obtain ⟨h3, h4⟩ := H.pullItem _ _ _ _ hx h _ _ _ hs h2
    exact ih h4 h3 ho
  | pullFin h h2 _ ih =>
    obtain ⟨h3, h4⟩ := H.pullFin _ _ _ _ hx h _ _ hs h2
    exact ih h4 h3 ho
  | pullErr h => cases ho

theorem Dataset.Run.noErr {s s' : σ} {es : List (Ev α)} (h : D.Run s es s') : ∀ e ∈ es, e ≠ .err := by
  induction h with
  | nil => simp
  | item _ _ ih => simpa using ih
  | fin _ _ ih => simpa using ih

theorem epochize_pull_trans (es : List (Ev α)) (a : α) (i : Nat) (he : ∀ e ∈ es, e ≠ .err)
    (hi : i + (itemsOf es).length + 1 = len) :
    (epochizeW len rs has).Trans ⟨(i + 1) % len, .pulling i⟩ (es ++ [.item a])
      ((itemsOf es ++ [a]).map .item) ⟨0, .next len⟩ := by
  induction es generalizing i with
  | nil =>
    simp only [itemsOf, List.length_nil] at hi
    rw [show (i + 1) % len = 0 by rw [show i + 1 = len by omega, Nat.mod_self]]
    refine .pullItem (W := epochizeW len rs has) (x := ⟨0, .pulling i⟩) rfl
      (.emit (W := epochizeW len rs has) (x := ⟨0, .got a i⟩) rfl ?_)
    rw [show i + 1 = len by omega]; exact .nil
  | cons e es ih =>
    simp only [List.mem_cons, forall_eq_or_imp] at he
    cases e with
    | err => exact absurd rfl he.1
    | fin => exact .pullFin (W := epochizeW len rs has) (x := ⟨_, .pulling i⟩) rfl (ih i he.2 hi)
    | item b =>
      simp only [itemsOf, List.length_cons] at hi
      have := ih (i + 1) he.2 (by omega)
      refine .pullItem (W := epochizeW len rs has) (x := ⟨_, .pulling i⟩) rfl
        (.emit (W := epochizeW len rs has) (x := ⟨_, .got b i⟩) rfl
          (.tau (W := epochizeW len rs has) (x' := ⟨(i + 1 + 1) % len, .pulling (i + 1)⟩) ?_ this))
      have hlt : i + 1 < len := by omega
      simp only [epochizeW, hlt, if_true]

/-! ### Repeat -/

variable {reps : Option Nat}

theorem repeat_noReset : (repeatW reps has rs).NoReset := by
  rintro ⟨n, c⟩ x' h
  cases c <;> simp only [repeatW] at h <;> try cases h
  cases reps <;> simp only at h <;> split at h <;> cases h

theorem repeat_inv (r : Bool) :
    WInv (Source.single D) (repeatW reps has rs) (D.Paused r)
      (fun x => (∀ a, x.ctl = .got a → D.Yields r a) ∧ (reps = none → has = false → x.ctl = .start))
      (fun x => (x.ctl = .start ∨ x.ctl = .loop) ∧ (reps = none → has = false → x.ctl = .start)) := by
  refine WInv.mk' repeat_noReset ?_ ?_ ?_ ?_ ?_ ?_
  · rintro x ⟨h1, h2⟩
    refine ⟨fun a h => ?_, h2⟩
    rcases h1 with h1 | h1 <;> rw [h1] at h <;> cases h
  · rintro ⟨n, c⟩ b x' ⟨h1, h2⟩ h
    cases c <;> simp only [repeatW] at h <;> try cases h
    · cases reps <;> simp only at h <;> split at h <;> cases h
    · exact ⟨.inr rfl, fun h3 h4 => absurd (h2 h3 h4) (by simp)⟩
  · rintro ⟨n, c⟩ x' ⟨h1, h2⟩ h
    cases c <;> simp only [repeatW] at h <;> try cases h
    cases reps <;> simp only at h <;> split at h <;> cases h
    exact ⟨.inl rfl, fun _ _ => rfl⟩
  · rintro ⟨n, c⟩ x' ⟨h1, h2⟩ h
    cases c <;> simp only [repeatW] at h <;> try cases h
    cases reps <;> simp only at h <;> split at h <;> cases h
    · rename_i hh
      exact ⟨(by intro a h; cases h), fun _ h3 => by rw [hh] at h3; cases h3⟩
    · exact ⟨(by intro a h; cases h), fun h3 => by cases h3⟩
  · rintro ⟨n, c⟩ i f g ⟨h1, h2⟩ h a ha
    cases c <;> simp only [repeatW] at h <;> try cases h
    · cases reps <;> simp only at h <;> split at h <;> cases h
    · exact ⟨(by intro b h; cases h; exact ha), fun h3 h4 => absurd (h2 h3 h4) (by simp)⟩
  · rintro ⟨n, c⟩ i f g ⟨h1, h2⟩ h _
    cases c <;> simp only [repeatW] at h <;> try cases h
    · cases reps <;> simp only at h <;> split at h <;> cases h
    · exact ⟨(by intro b h; cases h), fun _ _ => rfl⟩

theorem repeat_paused {r : Bool} {p : σ × RepX α} (h : (wrap D (repeatW reps has rs)).Paused r p) :
    D.Paused r p.1 ∧ ((p.2.ctl = .start ∨ p.2.ctl = .loop) ∧ (reps = none → has = false → p.2.ctl = .start)) :=
  wrap_paused (repeat_inv r) ⟨.inl rfl, fun _ _ => rfl⟩ (fun _ _ => ⟨.inl rfl, fun _ _ => rfl⟩)
    (fun _ _ _ => ⟨.inl rfl, fun _ _ => rfl⟩) h

/-- Without a number of repeats the counter has no influence. -/
theorem repeat_forever_off {s : σ} {m n : Nat} {c : RepCtl α} :
    (wrap D (repeatW none has rs)).Equiv (s, ⟨m, c⟩) (s, ⟨n, c⟩) := by
  have key : ∀ {s : σ} {x : RepX α} {o}, WObs (Source.single D) (repeatW none has rs) s x o →
      ∀ y : RepX α, x.ctl = y.ctl → ∃ o', WObs (Source.single D) (repeatW none has rs) s y o' ∧
        Out.Rel (fun p q => p.1 = q.1 ∧ p.2.ctl = q.2.ctl) o o' := by
    intro s x o h
    induction h with
    | @emit s x b x' h =>
      rintro ⟨n, d⟩ hc
      obtain ⟨m, c⟩ := x
      simp only at hc; subst hc
      cases c <;> simp only [repeatW] at h <;> try (first | cases h | (split at h <;> cases h))
      exact ⟨_, .emit rfl, .item ⟨rfl, rfl⟩⟩
    | @halt s x x' h =>
      obtain ⟨m, c⟩ := x
      cases c <;> simp only [repeatW] at h <;> first | cases h | (split at h <;> cases h)
    | @raise s x h =>
      rintro ⟨n, d⟩ hc
      obtain ⟨m, c⟩ := x
      simp only at hc; subst hc
      cases c <;> simp only [repeatW] at h <;> try cases h
      cases has
      · exact ⟨_, .raise rfl, .err⟩
      · cases h
    | @tau s x x' o h _ ih =>
      rintro ⟨n, d⟩ hc
      obtain ⟨m, c⟩ := x
      simp only at hc; subst hc
      cases c <;> simp only [repeatW] at h <;> try cases h
      cases has
      · cases h
      · cases h
        obtain ⟨o', h1, h2⟩ := ih ⟨n + 1, .loop⟩ rfl
        exact ⟨o', .tau rfl h1, h2⟩
    | reset h => exact absurd h (repeat_noReset _ _)
    | @pullItem s x i f g a s' o h hs _ ih =>
      rintro ⟨n, d⟩ hc
      obtain ⟨m, c⟩ := x
      simp only at hc; subst hc
      cases c <;> simp only [repeatW] at h <;> try (first | cases h | (split at h <;> cases h))
      obtain ⟨o', h1, h2⟩ := ih ⟨n, .got a⟩ rfl
      exact ⟨o', .pullItem rfl hs h1, h2⟩
    | @pullFin s x i f g s' o h hs _ ih =>
      rintro ⟨n, d⟩ hc
      obtain ⟨m, c⟩ := x
      simp only at hc; subst hc
      cases c <;> simp only [repeatW] at h <;> try (first | cases h | (split at h <;> cases h))
      obtain ⟨o', h1, h2⟩ := ih ⟨n, .start⟩ rfl
      exact ⟨o', .pullFin rfl hs h1, h2⟩
    | @pullErr s x i f g h hs =>
      rintro ⟨n, d⟩ hc
      obtain ⟨m, c⟩ := x
      simp only at hc; subst hc
      cases c <;> simp only [repeatW] at h <;> try (first | cases h | (split at h <;> cases h))
      exact ⟨_, .pullErr rfl hs, .err⟩
  refine Dataset.Equiv.of_bisim (D := wrap D (repeatW none has rs))
    (R := fun p q => p.1 = q.1 ∧ p.2.ctl = q.2.ctl) ?_ ?_ ⟨rfl, rfl⟩
  · rintro ⟨s, x⟩ ⟨t, y⟩ ⟨h1, h2⟩ o ho
    simp only at h1 h2; subst h1
    obtain ⟨o', h3, h4⟩ := key (wrap_obs.1 ho) y h2
    exact ⟨o', wrap_obs.2 h3, h4⟩
  · rintro ⟨s, x⟩ ⟨t, y⟩ ⟨h1, h2⟩ o ho
    simp only at h1 h2; subst h1
    obtain ⟨o', h3, h4⟩ := key (wrap_obs.1 ho) y h2.symm
    exact ⟨o', wrap_obs.2 h3, h4.mono fun p q h => ⟨h.1.symm, h.2.symm⟩⟩

theorem repeat_trans_inv {x x' : RepX α} {es os : List (Ev α)} (h : (repeatW none has rs).Trans x es os x') :
    (match x.ctl with | .got a => a :: itemsOf es | _ => itemsOf es) =
      itemsOf os ++ (match x'.ctl with | .got a => [a] | _ => []) ∧ os = (itemsOf os).map .item := by
  induction h with
  | @nil x => cases x.ctl <;> simp [itemsOf]
  | @emit x b x1 es os x2 h _ ih =>
    obtain ⟨n, c⟩ := x
    cases c <;> simp only [repeatW] at h <;> try (first | cases h | (split at h <;> cases h))
    refine ⟨?_, by simp only [itemsOf, List.map_cons]; rw [← ih.2]⟩
    have := ih.1
    simp only [itemsOf, List.cons_append] at this ⊢
    rw [this]
  | @halt x x1 es os x2 h _ ih =>
    obtain ⟨n, c⟩ := x
    cases c <;> simp only [repeatW] at h <;> first | cases h | (split at h <;> cases h)
  | @tau x x1 es os x2 h _ ih =>
    obtain ⟨n, c⟩ := x
    cases c <;> simp only [repeatW] at h <;> try (first | cases h | (split at h <;> cases h))
    all_goals simpa [itemsOf] using ih
  | @pullItem x f g a es os x2 h _ ih =>
    obtain ⟨n, c⟩ := x
    cases c <;> simp only [repeatW] at h <;> try (first | cases h | (split at h <;> cases h))
    simpa [itemsOf] using ih
  | @pullFin x f g es os x2 h _ ih =>
    obtain ⟨n, c⟩ := x
    cases c <;> simp only [repeatW] at h <;> try (first | cases h | (split at h <;> cases h))
    simpa [itemsOf] using ih

theorem repeat_forward (es : List (Ev α)) (he : ∀ e ∈ es, e ≠ .err) (n : Nat) :
    ∃ m, (repeatW none true rs).Trans ⟨n, .loop⟩ es ((itemsOf es).map .item) ⟨m, .loop⟩ := by
  induction es generalizing n with
  | nil => exact ⟨n, .nil⟩
  | cons e es ih =>
    simp only [List.mem_cons, forall_eq_or_imp] at he
    cases e with
    | err => exact absurd rfl he.1
    | item a =>
      obtain ⟨m, h⟩ := ih he.2 n
      exact ⟨m, .pullItem (W := repeatW none true rs) (x := ⟨n, .loop⟩) rfl
        (.emit (W := repeatW none true rs) (x := ⟨n, .got a⟩) rfl h)⟩
    | fin =>
      obtain ⟨m, h⟩ := ih he.2 (n + 1)
      exact ⟨m, .pullFin (W := repeatW none true rs) (x := ⟨n, .loop⟩) rfl
        (.tau (W := repeatW none true rs) (x := ⟨n, .start⟩) rfl h)⟩

theorem repeat_loop_trans (xs : List α) (n : Nat) :
    (repeatW reps has rs).Trans ⟨n, .loop⟩ (xs.map .item) (xs.map .item) ⟨n, .loop⟩ := by
  induction xs with
  | nil => exact .nil
  | cons a xs ih =>
    exact .pullItem (W := repeatW reps has rs) (x := ⟨n, .loop⟩) rfl
      (.emit (W := repeatW reps has rs) (x := ⟨n, .got a⟩) rfl ih)

theorem repeat_passes_trans (xss : List (List α)) (n m : Nat) (h : n + xss.length = m) :
    (repeatW (some m) has rs).Trans ⟨n, .start⟩ (xss.flatMap passEvs) (xss.flatten.map .item) ⟨m, .start⟩ := by
  induction xss generalizing n with
  | nil => simp only [List.length_nil, Nat.add_zero] at h; subst h; exact .nil
  | cons xs xss ih =>
    have hn : n < m := by simp at h; omega
    have h1 := ih (n + 1) (by simp at h; omega)
    have h2 : (repeatW (some m) has rs).Trans ⟨n + 1, .loop⟩ (passEvs xs) (xs.map .item) ⟨n + 1, .start⟩ := by
      have := (repeat_loop_trans (reps := some m) (has := has) (rs := rs) xs (n + 1)).append
        (.pullFin (W := repeatW (some m) has rs) (x := ⟨n + 1, .loop⟩) rfl .nil)
      simpa [passEvs] using this
    have h3 := h2.append h1
    simp only [List.flatMap_cons, List.flatten_cons, List.map_append]
    exact .tau (W := repeatW (some m) has rs) (x := ⟨n, .start⟩) (x' := ⟨n + 1, .loop⟩)
      (by simp only [repeatW, hn, if_true]) h3

end Verif.Stream
