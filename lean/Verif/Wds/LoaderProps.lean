import Verif.Stream.Example
import Verif.Wds.EpochLemmas

/-!
# Properties of `WebdatasetSampleLoaderDataset` (C32, C33)
-/

namespace Verif.Wds

open Verif.Stream

variable {C ρ : Type} {R : WRng ρ} {c : Cfg C} {restore : List Key → Option (Smp C)} {x x' : LdX C ρ}

local notation "LD" => loaderD R c restore

theorem paused_atRest (hd : (c.shards.map (·.id)).Nodup) {r : Bool} {s : LdX C ρ} (h : (LD).Paused r s) : AtRest c s := by
  induction h with
  | init => exact ⟨⟨by simp [loaderD, ldInit], fun b hb s p e => by
      rw [List.eq_of_mem_replicate hb] at e; cases e⟩, .inl rfl⟩
  | item _ ho ih => exact ((ih.1.obs ho).1 _ _ rfl).1
  | fin _ ho ih => exact ((ih.1.obs ho).2 _ rfl).1
  | @resume s _ ih =>
    have e : (LD).resume ((LD).save s) = { s with ctl := .fresh } := resume_save hd ih.1
    rw [e]
    exact ⟨ih.1, .inl rfl⟩
  | reset => exact ⟨⟨by simp [loaderD, ldInit], fun b hb s p e => by
      rw [List.eq_of_mem_replicate hb] at e; cases e⟩, .inl rfl⟩

theorem equiv_fresh (h : AtRest c x) : (LD).Equiv x { x with ctl := .fresh } := by
  rcases h.2 with h' | ⟨h1, h2, h3⟩
  · obtain ⟨_, _, _, _, _, _, _⟩ := x
    cases h'
    exact Dataset.Equiv.refl _
  · have s1 : (LD).step { x with ctl := .fresh } = .skip { x with ctl := .top } := by
      simp [loaderD, ldStep, h3]
    have s2 : (LD).step { x with ctl := .top } = .skip x := by
      obtain ⟨_, _, _, _, _, _, _⟩ := x
      cases h1
      simp only [loaderD, ldStep]
      rw [if_pos]
      simp only [Bool.or_eq_true]
      exact .inl h2
    exact ((Dataset.Equiv.of_skip s1).trans (Dataset.Equiv.of_skip s2)).symm

/-- **C33.** The webdataset reader resumes exactly, at every point of every history: mid-slice, at the end of slices, at the end
of epochs, with any number of parallel iterators, any random generator, and after any number of earlier interruptions. The only
assumption is that no two slices of the worker have the same name and offset. -/
theorem C33_resumes (hd : (c.shards.map (·.id)).Nodup) (r : Bool) : (LD).ResumesExactly r := by
  intro s hs
  have h := paused_atRest hd hs
  have e : (LD).resume ((LD).save s) = { s with ctl := .fresh } := resume_save hd h.1
  rw [e]
  exact equiv_fresh h

/-- A generator for the examples: the numbers count up, the first open iterator is used, every second order is reversed. -/
def exRng : WRng Nat :=
  { seed := 1
    below := fun g n => (g % n, g + 1)
    below_lt := fun g n h => Nat.mod_lt g h
    choice := fun g ws => (ws.findIdx (· ≠ 0), g + 1)
    choice_pos := by
      rintro g ws ⟨w, hw, h0⟩
      have h : ws.findIdx (· ≠ 0) < ws.length := List.findIdx_lt_length_of_exists ⟨w, hw, by simpa using h0⟩
      exact ⟨ws[ws.findIdx (· ≠ 0)], List.getElem?_eq_getElem h, by simpa using List.findIdx_getElem (w := h)⟩
    perm := fun g n => (if g % 2 = 0 then List.range n else (List.range n).reverse, g + 1)
    perm_perm := by
      intro g n
      dsimp only
      split
      · exact .refl _
      · exact List.reverse_perm _ }

/-- Three slices with together five samples, one of them excluded -/
def exShards : List (Slice Nat) :=
  [⟨("a", 0), 2, [⟨1, [.num 1]⟩, ⟨2, [.num 2]⟩]⟩, ⟨("a", 2), 2, [⟨3, [.num 3]⟩]⟩, ⟨("b", 0), 1, [⟨5, [.num 5]⟩]⟩]

/-- **C33**: without distinct slices this fails: two slices with the same name and offset (e.g. of two shards with equal names) are
confused. -/
theorem C33_violated_of_equal_slices :
    ∃ (c : Cfg Nat), Valid c ∧ ¬ (loaderD exRng c (fun _ => none)).ResumesExactly := by
  let c : Cfg Nat := ⟨[⟨("a", 0), 2, [⟨1, []⟩, ⟨2, []⟩]⟩, ⟨("a", 0), 2, [⟨3, []⟩, ⟨4, []⟩]⟩], .none, 1, false⟩
  refine ⟨c, ⟨by simp [c], by simp [c], by simp [c]⟩, fun h => ?_⟩
  have hp : (loaderD exRng c (fun _ => none)).Paused false _ := Dataset.after_paused (n := 10) (k := 1) rfl .init
  exact Dataset.not_equiv 10 1 (by decide +kernel) (by decide +kernel) (h _ hp)

/-- The hypotheses are satisfiable. -/
example : (loaderD exRng ⟨exShards, .over 2, 2, true⟩ (fun _ => none)).ResumesExactly true := C33_resumes (by decide) true

theorem New.atStart {s : LdX C ρ} (h : New R c restore s) : Inv c s ∧ AtRest c s ∧ AtStart s := by
  have key : ∀ g : ρ, Inv c { ldInit R c with rng := g } ∧ AtRest c { ldInit R c with rng := g } ∧
      AtStart { ldInit R c with rng := g } := by
    intro g
    have hn : ∀ b ∈ (ldInit R c).active, b = none := fun b hb => List.eq_of_mem_replicate hb
    have hm : Mem c { ldInit R c with rng := g } :=
      ⟨by simp [ldInit], fun b hb s p e => by rw [hn b hb] at e; cases e⟩
    exact ⟨⟨hm, by simp [ldInit], by simp [ldInit]⟩, ⟨hm, .inl rfl⟩, hn, rfl⟩
  rcases h with rfl | ⟨t, _, rfl⟩
  · exact key R.seed
  · exact key t.rng

open Classical in
/-- What is left until the pass ends -/
noncomputable def todo (c : Cfg C) (x : LdX C ρ) : List (Smp C) := if AtStart x then c.full else rem x

theorem AtRest.notPick (h : AtRest c x) : ¬ (x.ctl = .pick ∧ AtStart x) := by
  rintro ⟨h1, h2⟩
  rcases h.2 with h | ⟨_, h, _⟩
  · rw [h] at h1; cases h1
  · obtain ⟨b, hb, hs⟩ := List.any_eq_true.1 h
    rw [h2.1 b hb] at hs
    cases hs

theorem AtRest.notStart {a : Smp C} (h : Mem c x) (ho : Obs (ldStep R c) x (.item a x')) : ¬ AtStart x' := by
  obtain ⟨_, i, s, p, hi, _⟩ := (h.obs ho).1 _ _ rfl
  exact notStart_get hi

theorem todo_item (hv : Valid c) (hm : c.mode ≠ .replace) (hl : c.loop = false) (hi : Inv c x) {a : Smp C}
    (ho : Obs (ldStep R c) x (.item a x')) : Inv c x' ∧ AtRest c x' ∧ Rel c (a :: todo c x') (todo c x) := by
  obtain ⟨h1, h2⟩ := (hi.obs hv hm ho).1 _ _ rfl
  refine ⟨h1, ((hi.mem.obs ho).1 _ _ rfl).1, ?_⟩
  unfold todo
  rw [if_neg (AtRest.notStart hi.mem ho)]
  rcases h2 with ⟨h2, h3⟩ | ⟨⟨_, h2⟩ | ⟨h2, _⟩, h3⟩
  · rw [if_neg h2]
    exact h3
  · rw [if_pos h2]
    exact h3
  · rw [hl] at h2
    cases h2

theorem todo_items (hv : Valid c) (hm : c.mode ≠ .replace) (hl : c.loop = false) {ys : List (Smp C)} (hi : Inv c x) (hr : AtRest c x)
    (h : (LD).Items x ys x') : Inv c x' ∧ AtRest c x' ∧ Rel c (ys ++ todo c x') (todo c x) := by
  induction ys generalizing x with
  | nil =>
    cases h
    exact ⟨hi, hr, .rfl'⟩
  | cons a ys ih =>
    cases h with
    | item h1 h2 =>
      obtain ⟨g1, g2, g3⟩ := todo_item hv hm hl hi h1
      obtain ⟨k1, k2, k3⟩ := ih g1 g2 h2
      exact ⟨k1, k2, (k3.append_left [a]).trans g3⟩

theorem todo_fin (hv : Valid c) (hm : c.mode ≠ .replace) (hi : Inv c x) (hr : AtRest c x)
    (ho : Obs (ldStep R c) x (.fin x')) : Inv c x' ∧ AtRest c x' ∧ AtStart x' ∧ todo c x = [] := by
  obtain ⟨h1, h2, _, h3⟩ := (hi.obs hv hm ho).2.1 _ rfl
  refine ⟨h1, ((hi.mem.obs ho).2 _ rfl).1, h2, ?_⟩
  unfold todo
  rcases h3 with ⟨h3, h4⟩ | ⟨_, h3, h4⟩ | h3
  · rw [if_neg h3, h4]
  · rw [if_pos h3, h4]
  · exact absurd h3 hr.notPick

theorem todo_pass (hv : Valid c) (hm : c.mode ≠ .replace) (hl : c.loop = false) {xs : List (Smp C)} (hi : Inv c x) (hr : AtRest c x)
    (h : (LD).Pass x xs x') : Inv c x' ∧ AtRest c x' ∧ AtStart x' ∧ Rel c xs (todo c x) := by
  obtain ⟨y, h1, h2⟩ := Dataset.pass_iff.1 h
  obtain ⟨g1, g2, g3⟩ := todo_items hv hm hl hi hr h1
  obtain ⟨k1, k2, k3, k4⟩ := todo_fin hv hm g1 g2 h2
  rw [k4, List.append_nil] at g3
  exact ⟨k1, k2, k3, g3⟩

theorem todo_start (h : AtStart x) : todo c x = c.full := if_pos h

/-- **C32** (`loop = false`: validation, and `shuffle_over_epochs` = `None` or `n ≥ 1`). Every complete pass delivers exactly the
samples of the slices of this worker, each exactly once (`n` times), in order if there is no shuffling; and a pass which is not
yet complete has delivered part of them: `rest` is what is missing. Whatever the number of parallel iterators and the random
choices. -/
theorem C32_passes (hv : Valid c) (hm : c.mode ≠ .replace) (hl : c.loop = false) {s s' : LdX C ρ} (hs : New R c restore s)
    {xss : List (List (Smp C))} {ys : List (Smp C)} (h : (LD).Run s (xss.flatMap passEvs ++ ys.map .item) s') :
    (∀ xs ∈ xss, Rel c xs c.full) ∧ ∃ rest, Rel c (ys ++ rest) c.full := by
  obtain ⟨hi, hr, h0⟩ := hs.atStart
  clear hs
  induction xss generalizing s with
  | nil =>
    obtain ⟨_, _, g⟩ := todo_items (x' := s') hv hm hl hi hr h
    rw [todo_start h0] at g
    exact ⟨by simp, _, g⟩
  | cons xs xss ih =>
    rw [List.flatMap_cons, List.append_assoc] at h
    obtain ⟨t, h1, h2⟩ := Dataset.Run.append_inv h
    obtain ⟨g1, g2, g3, g4⟩ := todo_pass hv hm hl hi hr h1
    obtain ⟨k1, k2⟩ := ih h2 g1 g2 g3
    rw [todo_start h0] at g4
    exact ⟨by simpa using ⟨g4, k1⟩, k2⟩

/-- **C32 and C33 together**: if a pass is interrupted after any samples `ys`, and resumed in a new process, then the samples before
and after the interruption are together those of one pass: none is lost and none is duplicated. -/
theorem C32_interrupted (hd : (c.shards.map (·.id)).Nodup) (hv : Valid c) (hm : c.mode ≠ .replace) (hl : c.loop = false)
    {s s' t : LdX C ρ} (hs : New R c restore s) {ys zs : List (Smp C)} (h : (LD).Items s ys s')
    (h' : (LD).Pass ((LD).resume ((LD).save s')) zs t) : Rel c (ys ++ zs) c.full := by
  obtain ⟨hi, hr, h0⟩ := hs.atStart
  obtain ⟨g1, g2, g3⟩ := todo_items hv hm hl hi hr h
  have e : (LD).resume ((LD).save s') = { s' with ctl := .fresh } := resume_save hd g2.1
  rw [e] at h'
  have hi' : Inv c { s' with ctl := .fresh } := ⟨g1.mem, g1.len, g1.pend⟩
  obtain ⟨_, _, _, g4⟩ := todo_pass hv hm hl hi' ⟨g2.1, .inl rfl⟩ h'
  rw [todo_start h0] at g3
  exact (g4.append_left ys).trans g3

/-- The epochs in an endless run -/
theorem loop_items (hv : Valid c) (hm : c.mode ≠ .replace) {ys : List (Smp C)} (hi : Inv c x)
    (h : (LD).Items x ys x') : Rel c (ys ++ rem x') (rem x) ∨
      ∃ (fst : List (Smp C)) (es : List (List (Smp C))) (cur : List (Smp C)), ys = fst ++ es.flatten ++ cur ∧ Rel c fst (rem x) ∧
        (∀ e ∈ es, Rel c e c.full) ∧ Rel c (cur ++ rem x') c.full := by
  induction ys generalizing x with
  | nil =>
    cases h
    exact .inl .rfl'
  | cons a ys ih =>
    cases h with
    | item h1 h2 =>
      obtain ⟨g1, g2⟩ := (hi.obs hv hm h1).1 _ _ rfl
      rename_i x1
      have g2 : Rel c (a :: rem x1) (rem x) ∨ rem x = [] ∧ Rel c (a :: rem x1) c.full := by
        rcases g2 with ⟨_, g2⟩ | ⟨⟨_, g2⟩ | ⟨_, g2⟩, g3⟩
        · exact .inl g2
        · exact .inr ⟨g2.rem, g3⟩
        · exact .inr ⟨g2, g3⟩
      rcases ih g1 h2 with k | ⟨fst, es, cur, k1, k2, k3, k4⟩
      · rcases g2 with g2 | ⟨g2, g3⟩
        · exact .inl ((k.append_left [a]).trans g2)
        · refine .inr ⟨[], [], a :: ys, rfl, ?_, by simp, (k.append_left [a]).trans g3⟩
          rw [g2]
          exact .rfl'
      · rcases g2 with g2 | ⟨g2, g3⟩
        · exact .inr ⟨a :: fst, es, cur, by rw [k1]; rfl, (k2.append_left [a]).trans g2, k3, k4⟩
        · refine .inr ⟨[], (a :: fst) :: es, cur, by rw [k1]; simp, ?_, ?_, k4⟩
          · rw [g2]
            exact .rfl'
          · intro e he
            rcases List.mem_cons.1 he with rfl | he
            · exact (k2.append_left [a]).trans g3
            · exact k3 e he

/-- **C32** (`loop = true`: training, `shuffle_over_epochs` = `None` or `n ≥ 1`). However many samples `ys` have been delivered, they
are a row of complete epochs (units of `n` epochs), each with exactly the samples of the slices of this worker, each once
(`n` times), and a part of the current epoch, where `rest` is missing. -/
theorem C32_epochs (hv : Valid c) (hm : c.mode ≠ .replace) {s s' : LdX C ρ} (hs : New R c restore s)
    {ys : List (Smp C)} (h : (LD).Items s ys s') :
    ∃ (es : List (List (Smp C))) (cur rest : List (Smp C)), ys = es.flatten ++ cur ∧ (∀ e ∈ es, Rel c e c.full) ∧
      (Rel c (cur ++ rest) c.full) := by
  obtain ⟨hi, hr, h0⟩ := hs.atStart
  rcases loop_items hv hm hi h with k | ⟨fst, es, cur, k1, k2, k3, k4⟩
  · rw [h0.rem] at k
    have := k.nil
    rw [List.append_eq_nil_iff] at this
    exact ⟨[], [], c.full, by simpa using this.1, by simp, .rfl'⟩
  · rw [h0.rem] at k2
    rw [k2.nil] at k1
    exact ⟨es, cur, _, k1, k3, k4⟩

/-- **C32**: the number of samples delivered in a pass, when nothing is excluded, is what `len` reports
(sample_loader.py:510-513; here for one worker), times `n`. -/
theorem C32_length (hv : Valid c) (hm : c.mode ≠ .replace) (hl : c.loop = false) (hx : ∀ s ∈ c.shards, s.samples.length = s.count)
    {s s' : LdX C ρ} (hs : New R c restore s) {xs : List (Smp C)} (h : (LD).Pass s xs s') :
    xs.length = c.copies * (c.shards.map (·.count)).sum := by
  have h1 := (C32_passes (xss := [xs]) (ys := []) hv hm hl hs (by simpa [Dataset.Pass] using h)).1 xs (by simp)
  rw [h1.1.length_eq]
  unfold Cfg.full Cfg.samples
  have : (c.shards.map (·.samples)).flatten.length = (c.shards.map (·.count)).sum := by
    rw [List.length_flatten, List.map_map]
    congr 1
    exact List.map_congr_left (fun s hs => hx s hs)
  rw [List.length_flatten, List.map_replicate, this]
  simp

/-- Two complete epochs of an example, and the beginning of the third -/
example : (itemsOf ((loaderD exRng ⟨exShards, .over 1, 2, true⟩ (fun _ => none)).eval 21
    (ldInit exRng ⟨exShards, .over 1, 2, true⟩))).map (·.content) = [5, 1, 2, 3, 5, 1, 2, 3, 5] := by decide +kernel

/-- The hypotheses are satisfiable. -/
example : Valid (⟨exShards, .over 2, 2, true⟩ : Cfg Nat) ∧ Valid (⟨exShards, .none, 1, false⟩ : Cfg Nat) :=
  ⟨⟨by decide, by decide, by simp⟩, ⟨by decide, by decide, by simp⟩⟩

/-! ## The reader always makes progress -/

/-- The number of slices that are open or pending -/
def slices (x : LdX C ρ) : Nat := x.pending.length + x.active.countP Option.isSome

theorem countP_set {β : Type} {p : β → Bool} {l : List β} {i : Nat} {b b' : β} (h : l[i]? = some b) :
    (l.set i b').countP p + (if p b then 1 else 0) = l.countP p + (if p b' then 1 else 0) := by
  induction l generalizing i with
  | nil => simp at h
  | cons d l ih =>
    cases i with
    | zero =>
      simp only [List.getElem?_cons_zero, Option.some.injEq] at h
      subst h
      simp only [List.set_cons_zero, List.countP_cons]
      omega
    | succ i =>
      simp only [List.getElem?_cons_succ] at h
      have := ih h
      simp only [List.set_cons_succ, List.countP_cons]
      omega

theorem slices_exhausted (hm : c.mode ≠ .replace) {i p : Nat} {g : ρ} {s : Slice C}
    (ha : x.active[i]? = some (some (s, p))) : slices (exhausted R c x i g) < slices x := by
  unfold exhausted slices
  cases hl : x.pending.getLast? with
  | some t =>
    obtain ⟨k, hk⟩ := List.getLast?_eq_some_iff.1 hl
    have := countP_set (p := Option.isSome) (b' := some (t, 0)) ha
    simp only [Option.isSome_some, if_true] at this
    simp only [hk, List.dropLast_concat, List.length_append, List.length_singleton]
    omega
  | none =>
    have := countP_set (p := Option.isSome) (b' := none) ha
    simp only [Option.isSome_some, if_true, Option.isSome_none] at this
    cases hm' : c.mode with
    | none => simp only; simp at this; omega
    | over n => simp only; simp at this; omega
    | replace => exact absurd hm' hm

/-- From the inner loop, a sample is delivered or the epoch ends. -/
theorem pick_progress (hv : Valid c) (hm : c.mode ≠ .replace) (hi : Inv c x) (hc : x.ctl = .pick) :
    (∃ a x', Obs (ldStep R c) x (.item a x')) ∨ (rem x = [] ∧ ∃ y, Inv c y ∧ AtStart y ∧
      (c.loop = true → y.ctl = .top ∧ ∀ o, Obs (ldStep R c) y o → Obs (ldStep R c) x o) ∧
      (c.loop = false → Obs (ldStep R c) x (.fin y))) := by
  generalize hn : slices x = n
  induction n using Nat.strongRecOn generalizing x with
  | _ n ih =>
    have hs := lstep R c x
    generalize hst : ldStep R c x = st at hs
    cases hs with
    | empty h => rw [hc] at h; cases h
    | begin h => rw [hc] at h; cases h
    | cont h => rw [hc] at h; cases h
    | epoch h => rw [hc] at h; cases h
    | done _ hw hl =>
      have h0 := hi.atStart hv hw
      refine .inr ⟨h0.rem, _, ?_, ?_, ?_, fun _ => .fin hst⟩
      · exact ⟨hi.mem, hi.len, hi.pend⟩
      · exact h0
      · intro h
        rw [hl] at h
        cases h
    | again _ hw hl =>
      have h0 := hi.atStart hv hw
      refine .inr ⟨h0.rem, { x with epoch := x.epoch + 1, epochCount := 0, ctl := .top }, ?_, ?_, ?_, ?_⟩
      · exact ⟨hi.mem, hi.len, hi.pend⟩
      · exact h0
      · exact fun _ => ⟨rfl, fun o ho => .skip hst ho⟩
      · intro h
        rw [hl] at h
        cases h
    | item => exact .inl ⟨_, _, .item hst⟩
    | bad => exact absurd rfl (fun h => (hi.obs hv hm (.err hst)).2.2 h)
    | @exh i g s p _ _ _ ha hp =>
      have h1 := slices_exhausted (R := R) (g := g) hm ha
      have hc' : (exhausted R c x i g).ctl = .pick := by
        unfold exhausted
        cases x.pending.getLast? with
        | some s => exact hc
        | none => cases c.mode <;> exact hc
      have hr := rem_exhausted (R := R) (g := g) hv hm hi ha hp
      rcases ih _ (hn ▸ h1) hi.exhausted hc' rfl with ⟨a, y, k⟩ | ⟨k0, y, k1, k2, k3, k4⟩
      · exact .inl ⟨a, y, .skip hst k⟩
      · rw [k0] at hr
        exact .inr ⟨hr.symm.nil, y, k1, k2, fun hl => ⟨(k3 hl).1, fun o ho => .skip hst ((k3 hl).2 o ho)⟩, fun hl => .skip hst (k4 hl)⟩

theorem top_progress (hv : Valid c) (hm : c.mode ≠ .replace) (h0 : AtStart x) (hc : x.ctl = .top)
    (hl : c.loop = true → c.full ≠ []) : ∃ o, Obs (ldStep R c) x o ∧ o ≠ .err := by
  have hst : ldStep R c x = .skip (newEpoch R c x) := by
    unfold ldStep
    simp only [hc]
    rw [if_neg]
    rw [h0.2]
    simp only [List.isEmpty_nil, Bool.not_true, Bool.or_false, Bool.not_eq_true, List.any_eq_false]
    intro b hb
    rw [h0.1 b hb]
    simp
  rcases pick_progress (R := R) hv hm (Inv.newEpoch x) rfl with ⟨a, y, h⟩ | ⟨h1, y, _, _, _, h2⟩
  · exact ⟨_, .skip hst h, by simp⟩
  · cases h : c.loop with
    | false => exact ⟨_, .skip hst (h2 h), by simp⟩
    | true => 
      have hr := rem_newEpoch (R := R) hm x
      rw [h1] at hr
      exact absurd hr.symm.nil (hl h)

theorem rest_progress (hv : Valid c) (hm : c.mode ≠ .replace) (hi : Inv c x) (hr : AtRest c x)
    (hl : c.loop = true → c.full ≠ []) : ∃ o, Obs (ldStep R c) x o ∧ o ≠ .err := by
  have pick : ∀ {x : LdX C ρ}, Inv c x → x.ctl = .pick → ∃ o, Obs (ldStep R c) x o ∧ o ≠ .err := by
    intro x hi hc
    rcases pick_progress (R := R) hv hm hi hc with ⟨a, y, h⟩ | ⟨_, y, _, h0, h1, h2⟩
    · exact ⟨_, h, by simp⟩
    · cases h : c.loop with
      | false => exact ⟨_, h2 h, by simp⟩
      | true => 
        obtain ⟨o, ho, hne⟩ := top_progress (R := R) hv hm h0 (h1 h).1 hl
        exact ⟨o, (h1 h).2 o ho, hne⟩
  rcases hr.2 with hc | ⟨hc, _⟩
  · cases hs : c.shards with
    | nil => exact ⟨_, .fin (s' := x) (by simp [ldStep, hc, hs]), by simp⟩
    | cons s l =>
      have hst : ldStep R c x = .skip { x with ctl := .top } := by simp [ldStep, hc, hs]
      by_cases h0 : AtStart x
      · obtain ⟨o, ho, hne⟩ := top_progress (R := R) (x := { x with ctl := .top }) hv hm h0 rfl hl
        exact ⟨o, .skip hst ho, hne⟩
      · have hst2 : ldStep R c { x with ctl := .top } = .skip { x with ctl := .pick } := by
          unfold ldStep
          dsimp only
          rw [if_pos]
          by_cases hp : x.pending = []
          · rw [Bool.or_eq_true]
            left
            apply Decidable.byContradiction
            intro hn
            rw [Bool.not_eq_true, List.any_eq_false] at hn
            refine h0 ⟨fun b hb => ?_, hp⟩
            have := hn b hb
            cases b with
            | none => rfl
            | some b => exact absurd rfl this
          · simp [hp]
        obtain ⟨o, ho, hne⟩ := pick (x := { x with ctl := .pick }) ⟨hi.mem, hi.len, hi.pend⟩ rfl
        exact ⟨o, .skip hst (.skip hst2 ho), hne⟩
  · exact pick hi hc

theorem paused_inv (hd : (c.shards.map (·.id)).Nodup) (hv : Valid c) (hm : c.mode ≠ .replace) {r : Bool} {s : LdX C ρ}
    (h : (LD).Paused r s) : Inv c s := by
  induction h with
  | init => exact (New.atStart (R := R) (restore := restore) (.inl rfl)).1
  | item _ ho ih => exact ((ih.obs hv hm ho).1 _ _ rfl).1
  | fin _ ho ih => exact ((ih.obs hv hm ho).2.1 _ rfl).1
  | @resume s _ ih =>
    have e : (LD).resume ((LD).save s) = { s with ctl := .fresh } := resume_save hd ih.mem
    rw [e]
    exact ⟨ih.mem, ih.len, ih.pend⟩
  | @reset s _ hp => 
    have hn : ∀ b ∈ (ldInit R c).active, b = none := fun b hb => List.eq_of_mem_replicate hb
    exact ⟨⟨by simp [loaderD, ldInit], fun b hb s p e => by rw [hn b hb] at e; cases e⟩, by simp [loaderD, ldInit],
      by simp [loaderD, ldInit]⟩

/-- **C32**: every call of `next` delivers a sample or the end of the pass: the reader neither hangs nor raises, in any history,
provided that (when looping) there is a sample at all. -/
theorem C32_live (hd : (c.shards.map (·.id)).Nodup) (hv : Valid c) (hm : c.mode ≠ .replace) (hl : c.loop = true → c.full ≠ [])
    (r : Bool) : (LD).Live r := by
  intro s hs
  exact rest_progress hv hm (paused_inv hd hv hm hs) (paused_atRest hd hs) hl

/-- **C32**: a training reader never ends, unless the worker has no slices. -/
theorem C32_never_ends (hd : (c.shards.map (·.id)).Nodup) (hv : Valid c) (hm : c.mode ≠ .replace) (hl : c.loop = true)
    (hs : c.shards ≠ []) (r : Bool) : (LD).NeverEnds r := by
  intro s s' hp ho
  obtain ⟨_, _, h, _⟩ := ((paused_inv hd hv hm hp).obs hv hm ho).2.1 _ rfl
  rcases h with h | h
  · exact hs h
  · rw [hl] at h
    cases h

/-! ## With replacement (`shuffle_over_epochs = -1`) -/

structure RInv (c : Cfg C) (x : LdX C ρ) : Prop where
  mem : Mem c x
  len : x.active.length = c.parallel
  pend : x.pending = []
  all : (∀ b ∈ x.active, b ≠ none) ∨ (x.ctl ≠ .pick ∧ ∀ b ∈ x.active, b = none)

theorem drawN_len (hs : c.shards ≠ []) (k : Nat) (g : ρ) : (drawN R c.shards k g).1.length = k := by
  induction k generalizing g with
  | zero => rfl
  | succ k ih =>
    simp only [drawN, List.length_append, ih]
    have := R.below_lt g c.shards.length (List.length_pos_iff.2 hs)
    rw [List.getElem?_eq_getElem this]
    simp only [Option.toList_some, List.length_singleton]
    omega

theorem fill_all (o : List (Slice C)) : (fill o.length o).2 = [] ∧ ∀ b ∈ (fill o.length o).1, b ≠ none := by
  generalize hn : o.length = n
  induction n generalizing o with
  | zero => simpa [fill] using List.length_eq_zero_iff.1 hn
  | succ n ih =>
    unfold fill
    cases h : o.getLast? with
    | none =>
      rw [List.getLast?_eq_none_iff] at h
      subst h
      cases hn
    | some s =>
      have := ih o.dropLast (by simp [hn])
      refine ⟨this.1, fun b hb => ?_⟩
      rcases List.mem_cons.1 hb with rfl | hb
      · simp
      · exact this.2 b hb

theorem RInv.newEpoch (hm : c.mode = .replace) (hs : c.shards ≠ []) (x : LdX C ρ) : RInv c (newEpoch R c x) := by
  have hl : (shardsOnce R c x.rng).1.reverse.length = c.parallel := by
    unfold shardsOnce
    rw [hm, List.length_reverse]
    exact drawN_len hs _ _
  have := fill_all (shardsOnce R c x.rng).1.reverse
  rw [hl] at this
  exact ⟨Mem.newEpoch x, fill_len _ _, this.1, .inl this.2⟩

theorem exhausted_replace (hm : c.mode = .replace) (hs : c.shards ≠ []) (hp : x.pending = []) (i : Nat) (g : ρ) :
    ∃ s ∈ c.shards, ∃ g', exhausted R c x i g = { x with active := x.active.set i (some (s, 0)), rng := g' } := by
  have hlt := R.below_lt g c.shards.length (List.length_pos_iff.2 hs)
  refine ⟨c.shards[(R.below g c.shards.length).1], List.getElem_mem hlt, (R.below g c.shards.length).2, ?_⟩
  unfold exhausted
  rw [hp]
  simp only [List.getLast?_nil, hm]
  rw [List.getElem?_eq_getElem hlt]
  rfl

theorem RInv.exhausted (hm : c.mode = .replace) (hs : c.shards ≠ []) (h : RInv c x) (hc : x.ctl = .pick) (i : Nat) (g : ρ) :
    RInv c (exhausted R c x i g) := by
  have h1 := h.mem.exhausted (R := R) i g
  obtain ⟨s, hs, g', e⟩ := exhausted_replace (R := R) hm hs h.pend i g
  rw [e] at h1 ⊢
  refine ⟨h1, by simpa using h.len, h.pend, .inl ?_⟩
  intro b hb
  rcases List.mem_or_eq_of_mem_set hb with hb | rfl
  · rcases h.all with h | ⟨h, _⟩
    · exact h b hb
    · exact absurd hc h
  · simp

theorem RInv.weight (hv : Valid c) (h : RInv c x) (hc : x.ctl = .pick) (hw : ∀ b ∈ x.active, weight b = 0) : False := by
  have hl := hv.pos
  rw [← h.len] at hl
  have hb := List.getElem_mem (Nat.lt_of_lt_of_le Nat.zero_lt_one hl)
  rcases h.all with k | ⟨k, _⟩
  · have k := k _ hb
    have hw := hw _ hb
    generalize x.active[0] = b at hb k hw
    cases b with
    | none => exact k rfl
    | some b =>
      have := hv.count _ (h.mem.2 _ hb b.1 b.2 rfl)
      simp only [Wds.weight] at hw
      omega
  · exact k hc

theorem RInv.pickIdx (hm : c.mode = .replace) {i : Nat} {g : ρ} (hw : ∃ b ∈ x.active, Wds.weight b ≠ 0)
    (hpi : pickIdx R c x = (i, g)) : ∃ s pos, x.active[i]? = some (some (s, pos)) := by
  unfold Wds.pickIdx at hpi
  simp only [hm] at hpi
  unfold WRng.choiceIdx at hpi
  by_cases h1 : (x.active.map Wds.weight).length = 1
  · rw [if_pos h1] at hpi
    cases hpi
    rw [List.length_map] at h1
    obtain ⟨d, hd⟩ := List.length_eq_one_iff.1 h1
    obtain ⟨b, hb, hne⟩ := hw
    rw [hd, List.mem_singleton] at hb
    subst hb
    cases b with
    | none => exact absurd rfl hne
    | some b => exact ⟨b.1, b.2, by rw [hd]; rfl⟩
  · rw [if_neg h1] at hpi
    obtain ⟨w, hw1, hw2⟩ := R.choice_pos x.rng (x.active.map Wds.weight) (by
      obtain ⟨b, hb, hne⟩ := hw
      exact ⟨_, List.mem_map.2 ⟨b, hb, rfl⟩, hne⟩)
    rw [hpi, List.getElem?_map] at hw1
    obtain ⟨b, hb, rfl⟩ := Option.map_eq_some_iff.1 hw1
    cases b with
    | none => exact absurd rfl hw2
    | some b => exact ⟨b.1, b.2, hb⟩

/-- One small step with replacement -/
theorem RInv.step (hv : Valid c) (hm : c.mode = .replace) (hs : c.shards ≠ []) (h : RInv c x) :
    (∃ x', ldStep R c x = .skip x' ∧ RInv c x') ∨ ∃ a x', ldStep R c x = .yield a x' ∧ RInv c x' := by
  have hst := lstep R c x
  generalize ldStep R c x = st at hst
  cases hst with
  | empty _ h => exact absurd h hs
  | begin h1 _ =>
    refine .inl ⟨_, rfl, h.mem, h.len, h.pend, ?_⟩
    rcases h.all with h | h
    · exact .inl h
    · exact .inr ⟨by simp, h.2⟩
  | cont h1 h2 =>
    refine .inl ⟨_, rfl, h.mem, h.len, h.pend, ?_⟩
    rcases h.all with h' | h'
    · exact .inl h'
    · rcases h2 with h2 | h2
      · obtain ⟨b, hb, hs⟩ := List.any_eq_true.1 h2
        rw [h'.2 b hb] at hs
        cases hs
      · exact absurd h.pend h2
  | epoch => exact .inl ⟨_, rfl, RInv.newEpoch hm hs x⟩
  | done hc hw _ => exact (h.weight hv hc hw).elim
  | again hc hw _ => exact (h.weight hv hc hw).elim
  | @item i g s pos a hc _ _ ha _ =>
    refine .inr ⟨_, _, rfl, ⟨h.mem.1, h.mem.set i _ ?_⟩, by simpa using h.len, h.pend, .inl ?_⟩
    · intro t q e
      cases e
      exact h.mem.2 _ (List.mem_of_getElem? ha) _ _ rfl
    · intro b hb
      rcases List.mem_or_eq_of_mem_set hb with hb | rfl
      · rcases h.all with h | ⟨h, _⟩
        · exact h b hb
        · exact absurd hc h
      · simp
  | @exh i g s pos hc => exact .inl ⟨_, rfl, h.exhausted hm hs hc i g⟩
  | bad hc hw hpi hb =>
    obtain ⟨s, p, hp⟩ := RInv.pickIdx hm hw hpi
    exact (hb s p hp).elim

theorem RInv.obs (hv : Valid c) (hm : c.mode = .replace) (hs : c.shards ≠ []) (h : RInv c x) {o} (ho : Obs (ldStep R c) x o) :
    ∃ a x', o = .item a x' ∧ RInv c x' := by
  induction ho with
  | item he =>
    rcases h.step hv hm hs with ⟨y, e, _⟩ | ⟨a, y, e, hy⟩
    · rw [he] at e; cases e
    · rw [he] at e; cases e; exact ⟨_, _, rfl, hy⟩
  | fin he =>
    rcases h.step hv hm hs with ⟨y, e, _⟩ | ⟨a, y, e, hy⟩
    · rw [he] at e; cases e
    · rw [he] at e; cases e
  | err he =>
    rcases h.step hv hm hs with ⟨y, e, _⟩ | ⟨a, y, e, hy⟩
    · rw [he] at e; cases e
    · rw [he] at e; cases e
  | skip he _ ih =>
    rcases h.step hv hm hs with ⟨y, e, hy⟩ | ⟨a, y, e, hy⟩
    · rw [he] at e; cases e; exact ih hy
    · rw [he] at e; cases e

theorem paused_rinv (hd : (c.shards.map (·.id)).Nodup) (hv : Valid c) (hm : c.mode = .replace) (hs : c.shards ≠ []) {r : Bool}
    {s : LdX C ρ} (h : (LD).Paused r s) : RInv c s := by
  induction h with
  | init =>
    obtain ⟨h1, h2, h3⟩ := New.atStart (R := R) (c := c) (restore := restore) (.inl rfl)
    exact ⟨h1.mem, h1.len, h3.2, .inr ⟨by simp [loaderD, ldInit], h3.1⟩⟩
  | item _ ho ih =>
    obtain ⟨a, y, e, hy⟩ := ih.obs hv hm hs ho
    cases e
    exact hy
  | fin _ ho ih =>
    obtain ⟨a, y, e, hy⟩ := ih.obs hv hm hs ho
    cases e
  | @resume s _ ih =>
    have e : (LD).resume ((LD).save s) = { s with ctl := .fresh } := resume_save hd ih.mem
    rw [e]
    refine ⟨ih.mem, ih.len, ih.pend, ?_⟩
    rcases ih.all with h | h
    · exact .inl h
    · exact .inr ⟨by simp, h.2⟩
  | @reset s _ hp =>
    have hn : ∀ b ∈ (ldInit R c).active, b = none := fun b hb => List.eq_of_mem_replicate hb
    exact ⟨⟨by simp [loaderD, ldInit], fun b hb s p e => by rw [hn b hb] at e; cases e⟩, by simp [loaderD, ldInit], rfl,
      .inr ⟨by simp [loaderD, ldInit], hn⟩⟩

/-- **C32**: with replacement the reader never ends, whatever `loop` is. -/
theorem C32_replacement_never_ends (hd : (c.shards.map (·.id)).Nodup) (hv : Valid c) (hm : c.mode = .replace)
    (hs : c.shards ≠ []) (r : Bool) : (LD).NeverEnds r := by
  intro s s' hp ho
  obtain ⟨a, y, e, hy⟩ := (paused_rinv hd hv hm hs hp).obs hv hm hs ho
  cases e

open Classical in
/-- Open slices that have been read completely -/
noncomputable def dry (x : LdX C ρ) : Nat := x.active.countP (fun b => decide (rest b = []))

/-- **C32**: with replacement every call of `next` delivers a sample, provided every slice has at least one sample which is not
excluded. -/
theorem C32_replacement_live (hd : (c.shards.map (·.id)).Nodup) (hv : Valid c) (hm : c.mode = .replace)
    (hs : c.shards ≠ []) (hne : ∀ s ∈ c.shards, s.samples ≠ []) (r : Bool) : (LD).Live r := by
  intro s hp
  have pick : ∀ n (x : LdX C ρ), RInv c x → x.ctl = .pick → dry x = n → ∃ a x', Obs (ldStep R c) x (.item a x') := by
    intro n
    induction n using Nat.strongRecOn with
    | _ n ih =>
      intro x hx hc hn
      have hst := lstep R c x
      generalize e : ldStep R c x = st at hst
      cases hst with
      | empty h => rw [hc] at h; cases h
      | begin h => rw [hc] at h; cases h
      | cont h => rw [hc] at h; cases h
      | epoch h => rw [hc] at h; cases h
      | done hc hw _ => exact (hx.weight hv hc hw).elim
      | again hc hw _ => exact (hx.weight hv hc hw).elim
      | item => exact ⟨_, _, .item e⟩
      | bad _ hw hpi hb =>
        obtain ⟨s, p, hp⟩ := RInv.pickIdx hm hw hpi
        exact (hb s p hp).elim
      | @exh i g s pos _ _ _ ha hp =>
        have h1 := hx.exhausted (R := R) hm hs hc i g
        obtain ⟨t, ht, g', e'⟩ := exhausted_replace (R := R) hm hs hx.pend i g
        have hlt : dry (exhausted R c x i g) < n := by
          rw [e', ← hn]
          have := countP_set (p := fun b => decide (rest b = [])) (b' := some (t, 0)) ha
          simp only [rest_nil hp] at this
          have ht : rest (some (t, 0)) ≠ [] := by simpa [rest] using hne t ht
          simp only [ht] at this
          simp at this
          unfold dry
          simp only
          omega
        obtain ⟨a, y, k⟩ := ih _ hlt _ h1 (by rw [e']; exact hc) rfl
        exact ⟨a, y, .skip e k⟩
  have top : ∀ x : LdX C ρ, RInv c x → x.ctl = .top → ∃ a x', Obs (ldStep R c) x (.item a x') := by
    intro x hx hc
    rcases hx.step (R := R) hv hm hs with ⟨y, e, hy⟩ | ⟨a, y, e, _⟩
    · have hyc : y.ctl = .pick := by
        have hst := lstep R c x
        rw [e] at hst
        generalize e' : Stream.Step.skip y = st at hst
        cases hst with
        | empty => cases e'
        | begin h => rw [hc] at h; cases h
        | cont => cases e'; rfl
        | epoch => cases e'; rfl
        | done => cases e'
        | again h => rw [hc] at h; cases h
        | item => cases e'
        | bad => cases e'
        | exh h => rw [hc] at h; cases h
      obtain ⟨a, z, k⟩ := pick _ y hy hyc rfl
      exact ⟨a, z, .skip e k⟩
    · exact ⟨a, y, .item e⟩
  have hx := paused_rinv hd hv hm hs hp
  rcases (paused_atRest hd hp).2 with hc | ⟨hc, _⟩
  · have e : ldStep R c s = .skip { s with ctl := .top } := by simp [ldStep, hc, hs]
    have hy : RInv c { s with ctl := .top } := by
      rcases hx.step (R := R) hv hm hs with ⟨y, e', hy⟩ | ⟨a, y, e', _⟩
      · rw [e] at e'; cases e'; exact hy
      · rw [e] at e'; cases e'
    obtain ⟨a, z, k⟩ := top _ hy rfl
    exact ⟨_, .skip e k, by simp⟩
  · obtain ⟨a, z, k⟩ := pick _ s hx hc rfl
    exact ⟨_, k, by simp⟩

/-- **C32**, in every mode: whatever is delivered belongs to the slices of this worker. -/
theorem C32_only_own_samples (hd : (c.shards.map (·.id)).Nodup) (r : Bool) (a : Smp C) (h : (LD).Yields r a) : a ∈ c.samples := by
  obtain ⟨s, s', hp, ho⟩ := h
  have hr := paused_atRest hd hp
  obtain ⟨h1, i, t, p, h2, h3⟩ := (hr.1.obs ho).1 _ _ rfl
  exact List.mem_flatten.2 ⟨_, List.mem_map.2 ⟨t, h1.1.2 _ (List.mem_of_getElem? h2) _ _ rfl, rfl⟩, List.mem_of_getElem? h3⟩

/-- The hypotheses are satisfiable. -/
example : (loaderD exRng ⟨exShards, .replace, 2, true⟩ (fun _ => none)).Live true :=
  C32_replacement_live (by decide) ⟨by decide, by decide, by simp⟩ rfl (by decide) (by decide) true

/-- An example with replacement -/
example : (itemsOf ((loaderD exRng ⟨exShards, .replace, 2, true⟩ (fun _ => none)).eval 12
    (ldInit exRng ⟨exShards, .replace, 2, true⟩))).map (·.content) = [3, 5, 5, 5, 5] := by decide +kernel

/-! ## The assumption on the counts is needed -/

/-- A slice with `count = 0` would never be opened and would end the pass early, with samples of other slices undelivered: the next
call of `next` ends the pass although the slice "b" has not been read. (The sharder never hands out such slices.) -/
theorem C32_needs_counts : ∃ (c : Cfg Nat) (s' : LdX Nat Nat), c.parallel = 1 ∧ c.loop = false ∧ c.mode = .none ∧
    c.full ≠ [] ∧ (loaderD exRng c (fun _ => none)).Pass (ldInit exRng c) [] s' :=
  ⟨⟨[⟨("a", 0), 0, []⟩, ⟨("b", 0), 1, [⟨5, []⟩]⟩], .none, 1, false⟩, _, rfl, rfl, rfl, by decide,
    .fin (.skip rfl (.skip rfl (.fin rfl))) .nil⟩

end Verif.Wds
