import Verif.Stream.Flow
import Verif.Pipeline.Train
import Verif.Pipeline.Val

/-! # C77: training never stalls -/

namespace Verif.Stream

variable {σ κ α β C C' K ρ : Type}

theorem loopW_flows {D : Dataset σ α κ} {body : Nat → α → LoopRes β} {rs : List Key → Option β} {has e : Bool}
    (hb : ∀ n a, ∃ b, body n a = .out b) (hD : D.Flows e) : (wrap D (loopW body rs has)).Flows e := by
  refine wrap_flows (inner := e) (fun x => e = true ∨ x.ctl ≠ .done) (fun x => match x.ctl with | .loop => 2 | .got _ => 1 | .done => 0)
    (.inr (by simp [loopW])) ?_ hD
  rintro ⟨n, c⟩ h
  cases c with
  | loop => exact ⟨trivial, fun a => ⟨.inr (by simp), by simp⟩, fun he => ⟨.inl he, by simp⟩⟩
  | got a =>
    obtain ⟨b, hb⟩ := hb n a
    simp only [loopW, hb]
    exact .inr (by simp)
  | done =>
    have he : e = true := by simpa using h
    exact ⟨he, .inl he⟩

theorem log_flows {D : Dataset σ (Smp C) κ} {e : Bool} (hD : D.Flows e) : (logD D).Flows e :=
  loopW_flows (fun _ _ => ⟨_, rfl⟩) hD

theorem map_flows {D : Dataset σ (Smp C) κ} {f : MapFn C C'} {st e : Bool} (hf : ∀ n a, ∃ c, f n a = .ok c) (hD : D.Flows e) :
    (mapD D f st).Flows e := by
  refine loopW_flows (fun n a => ?_) hD
  obtain ⟨c, hc⟩ := hf n a
  exact ⟨_, by simp only [mapBody, hc]; rfl⟩

theorem mapGen_flows {D : Dataset σ (Smp C) κ} {f : GenFn C C'} {st : Bool} (hf : ∀ n a, (f n a).1 ≠ [] ∧ (f n a).2 ≠ .fatal) (hD : D.Flows false) :
    (mapGenD D f st).Flows false := by
  refine wrap_flows (inner := false)
    (fun x => match x.ctl with
      | .start => x.gen = none
      | .loop => True
      | .got _ => True
      | .group res _ _ _ _ e => res = false ∧ e ≠ .fatal
      | .done => False)
    (fun x => match x.ctl with
      | .start => 9
      | .loop => 3
      | .got _ => 2
      | .group _ _ _ _ [] _ => 5
      | .group _ _ _ _ (_ :: _) _ => 1
      | .done => 0)
    rfl ?_ hD
  rintro ⟨n, g, c⟩ h
  cases c with
  | start =>
    simp only at h
    subst h
    exact ⟨trivial, by simp⟩
  | loop => exact ⟨trivial, fun a => ⟨trivial, by simp⟩, fun he => by cases he⟩
  | got a =>
    obtain ⟨h1, h2⟩ := hf n a
    refine ⟨⟨rfl, h2⟩, ?_⟩
    simp only
    cases hl : (f n a).1 with
    | nil => exact absurd hl h1
    | cons => simp
  | group res k j key rest e =>
    obtain ⟨rfl, h2⟩ := h
    cases rest with
    | cons c cs => exact ⟨rfl, h2⟩
    | nil =>
      cases e with
      | done => exact ⟨trivial, by simp⟩
      | skip => exact ⟨trivial, by simp⟩
      | fatal => exact absurd rfl h2
  | done => exact h.elim

theorem shuffle_flows {D : Dataset σ (Smp C) κ} {R : Rng ρ} {size : Nat} (hs : 0 < size) (hD : D.Flows false) : (shuffleD D R size).Flows false := by
  refine wrap_flows (inner := false) (fun x => x.ctl = .fill) (fun x => size - x.buf.length) rfl ?_ hD
  rintro ⟨buf, g, c⟩ rfl
  simp only [shuffleW]
  split
  · rename_i h
    have h1 := R.below_lt g buf.length (by omega)
    simp only [shufPop]
    rw [List.getElem?_eq_getElem h1]
    exact rfl
  · rename_i h
    exact ⟨trivial, fun a => ⟨rfl, by simp; omega⟩, fun he => by cases he⟩

theorem blend_flows {D : Nat → Dataset σ (Smp C) κ} {n : Nat} {R : Rng ρ} (hn : 0 < n) (hs : ∀ i < n, (D i).hasSamples = true)
    (hD : ∀ i, (D i).Flows false) : (blendD D n R).Flows false := by
  have hlen : 0 < (blendActive D n).length := by
    apply List.length_pos_of_mem (a := 0)
    exact mem_blendActive.2 ⟨hn, hs 0 hn⟩
  refine wrapMulti_flows (inner := false) (fun _ => True)
    (fun x => ∀ k, x.ctl = .pulling k → k < (blendActive D n).length)
    (fun x => match x.ctl with | .start => 4 | .draw => 3 | .pulling _ => 2 | .got _ _ => 1) (by simp [blendW]) ?_ (fun i _ => hD i)
  rintro ⟨g, c⟩ h
  cases c with
  | start =>
    simp only [blendW]
    rw [if_neg (by rw [List.isEmpty_iff]; intro e; rw [e] at hlen; exact absurd hlen (by decide))]
    exact ⟨by simp, by simp⟩
  | draw =>
    refine ⟨?_, by simp⟩
    intro k hk
    simp only [BlendCtl.pulling.injEq] at hk
    subst hk
    show (R.choiceIdx g (blendActive D n).length).1 < _
    unfold Rng.choiceIdx
    split
    · exact hlen
    · exact R.choice_lt _ _ hlen
  | pulling k =>
    have hk := h k rfl
    simp only [blendW]
    rw [List.getElem?_eq_getElem hk]
    exact ⟨trivial, fun a => ⟨by simp, by simp⟩, fun he => by cases he⟩
  | got a k => intro k' hk; simp at hk

theorem batch_flows {D : Dataset σ (Smp C) κ} {bs : Nat} (hbs : 0 < bs) {dl : Bool} {f : BatchFn C C'} (hf : ∀ i b, ∃ c, f i b = .ok c) (hD : D.Flows false) :
    (batchD D bs dl f).Flows false := by
  refine wrap_flows (inner := false)
    (fun x => (x.ctl = .loop ∧ x.batch.length < bs) ∨ x.ctl = .flush false ∨ x.ctl = .emitted false)
    (fun x => match x.ctl with | .loop => bs - x.batch.length + 1 | .flush _ => 0 | .emitted _ => bs + 5 | .done => 0)
    (.inl ⟨rfl, hbs⟩) ?_ hD
  rintro ⟨n, b, ks, c⟩ h
  simp only at h
  rcases h with ⟨rfl, h⟩ | rfl | rfl
  · refine ⟨trivial, fun a => ?_, fun he => by cases he⟩
    split
    · exact ⟨.inr (.inl rfl), by simp⟩
    · rename_i h'
      replace h' : ¬ b.length + 1 = bs := h'
      exact ⟨.inl ⟨rfl, by simp; omega⟩, by simp; omega⟩
  · obtain ⟨c, hc⟩ := hf n b
    simp only [batchW, hc]
    exact .inr (.inr rfl)
  · exact ⟨.inl ⟨rfl, hbs⟩, by simp⟩

theorem pack_flows {D : Dataset σ (Smp C) κ} {size : Nat} (hs : 0 < size) {pre : PreFn C} {gen : Bool} {f : FinalFn C C'}
    (hpre : ∀ i l, l.length = size → ∃ packs, pre i l = some packs ∧ packs ≠ [])
    (hf : ∀ i l, (f i l).1 ≠ [] ∧ (f i l).2 ≠ .fatal) (hD : D.Flows false) : (packD D size pre gen f).Flows false := by
  refine wrap_flows (inner := false)
    (fun x => x.pb.length = x.lens.sum ∧ x.rb.length ≤ size ∧ match x.ctl with
      | .check r => x.lens = [] → r = 0
      | .fill r => r = 0 ∧ x.lens = []
      | .ended => False
      | .final last => last = false ∧ x.lens ≠ []
      | .sub last _ _ _ _ e => last = false ∧ e ≠ .fatal
      | .drain => False
      | .dead => False)
    (fun x => match x.ctl with
      | .check _ => if x.lens = [] then size + 20 else 5
      | .fill _ => size - x.rb.length + 10
      | .final _ => 4
      | .sub _ _ _ _ [] _ => size + 30
      | .sub _ _ _ _ (_ :: _) _ => 2
      | _ => 0)
    ⟨rfl, Nat.zero_le _, fun _ => rfl⟩ ?_ hD
  rintro ⟨rb, pb, lens, p, q, c⟩ ⟨h1, h2, h3⟩
  simp only at h1 h2 h3
  cases c with
  | check r =>
    simp only [packW]
    by_cases hl : lens = []
    · simp only [hl, if_true]
      refine ⟨⟨by simpa [hl] using h1, h2, h3 hl, rfl⟩, ?_⟩
      simp only [if_true]
      omega
    · simp only [hl, if_false]
      exact ⟨⟨h1, h2, rfl, hl⟩, by simp [hl]⟩
  | fill r =>
    obtain ⟨rfl, rfl⟩ := h3
    obtain rfl : pb = [] := List.length_eq_zero_iff.1 h1
    simp only [packW, List.length_nil, Nat.add_zero]
    split
    · rename_i hlt
      refine ⟨trivial, fun a => ⟨⟨rfl, by simp; omega, rfl, rfl⟩, by simp; omega⟩, fun he => by cases he⟩
    · rename_i hlt
      have he : rb.length = size := by omega
      rw [if_neg (by simp [he]), if_neg (by omega)]
      obtain ⟨packs, hp, hne⟩ := hpre p rb he
      have hrb : rb ≠ [] := by intro e; rw [e] at he; simp at he; omega
      simp only [prePack, ne_eq, not_true_eq_false, if_false, hrb, hp]
      refine ⟨⟨by simp [List.length_flatten], by simp, fun e => absurd (List.map_eq_nil_iff.1 e) hne⟩, ?_⟩
      simp only [List.map_eq_nil_iff, hne, if_false]
      omega
  | ended => exact h3.elim
  | final last =>
    obtain ⟨rfl, hl⟩ := h3
    cases lens with
    | nil => exact absurd rfl hl
    | cons l ls =>
      obtain ⟨g1, g2⟩ := hf q (pb.take l)
      refine ⟨⟨?_, h2, rfl, g2⟩, ?_⟩
      · simp only [List.length_drop, List.sum_cons] at h1 ⊢
        omega
      · simp only
        cases hl : (f q (pb.take l)).1 with
        | nil => exact absurd hl g1
        | cons => simp
  | sub last idx j keys rest e =>
    obtain ⟨rfl, he⟩ := h3
    cases rest with
    | cons c cs => exact ⟨h1, h2, rfl, he⟩
    | nil =>
      simp only [packW, he, if_false, Bool.false_eq_true]
      refine ⟨⟨h1, h2, fun _ => rfl⟩, ?_⟩
      simp only
      split <;> omega
  | drain => exact h3.elim
  | dead => exact h3.elim

theorem epochize_flows {D : Dataset σ α κ} {length nw w : Nat} (hD : D.Flows false) : (epochizeD D length nw w).Flows true := by
  refine wrap_flows (inner := false) (fun _ => True)
    (fun x => match x.ctl with | .start => 4 | .next _ => 3 | .pulling _ => 2 | .got _ _ => 1) trivial ?_ hD
  rintro ⟨n, c⟩ -
  cases c with
  | start =>
    simp only [epochizeW]
    split
    · exact ⟨trivial, by simp⟩
    · exact ⟨rfl, trivial⟩
  | next idx =>
    simp only [epochizeW]
    split
    · exact ⟨trivial, by simp⟩
    · exact ⟨rfl, trivial⟩
  | pulling idx => exact ⟨trivial, fun a => ⟨trivial, by simp⟩, fun he => by cases he⟩
  | got a idx => exact trivial

theorem loopW_flowsAlways {D : Dataset σ α κ} {body : Nat → α → LoopRes β} {rs : List Key → Option β} {has e : Bool}
    (hb : ∀ n a, ∃ b, body n a = .out b) (hD : D.FlowsAlways e) : (wrap D (loopW body rs has)).FlowsAlways e := by
  refine wrap_flowsAlways (inner := e) (fun x => e = true ∨ x.ctl ≠ .done) (fun x => match x.ctl with | .loop => 2 | .got _ => 1 | .done => 0)
    (.inr (by simp [loopW])) ?_ (fun x _ => .inr (by simp [loopW])) hD
  rintro ⟨n, c⟩ h
  cases c with
  | loop => exact ⟨trivial, fun a => ⟨.inr (by simp), by simp⟩, fun he => ⟨.inl he, by simp⟩⟩
  | got a =>
    obtain ⟨b, hb⟩ := hb n a
    simp only [loopW, hb]
    exact .inr (by simp)
  | done =>
    have he : e = true := by simpa using h
    exact ⟨he, .inl he⟩

theorem log_flowsAlways {D : Dataset σ (Smp C) κ} {e : Bool} (hD : D.FlowsAlways e) : (logD D).FlowsAlways e :=
  loopW_flowsAlways (fun _ _ => ⟨_, rfl⟩) hD

theorem epochize_flowsAlways {D : Dataset σ α κ} {length nw w : Nat} (hD : D.FlowsAlways false) : (epochizeD D length nw w).FlowsAlways true := by
  refine wrap_flowsAlways (inner := false) (fun _ => True)
    (fun x => match x.ctl with | .start => 4 | .next _ => 3 | .pulling _ => 2 | .got _ _ => 1) trivial ?_ (fun _ _ => trivial) hD
  rintro ⟨n, c⟩ -
  cases c with
  | start =>
    simp only [epochizeW]
    split
    · exact ⟨trivial, by simp⟩
    · exact ⟨rfl, trivial⟩
  | next idx =>
    simp only [epochizeW]
    split
    · exact ⟨trivial, by simp⟩
    · exact ⟨rfl, trivial⟩
  | pulling idx => exact ⟨trivial, fun a => ⟨trivial, by simp⟩, fun he => by cases he⟩
  | got a idx => exact trivial

theorem map_flowsAlways {D : Dataset σ (Smp C) κ} {f : MapFn C C'} {st e : Bool} (hf : ∀ n a, ∃ c, f n a = .ok c) (hD : D.FlowsAlways e) :
    (mapD D f st).FlowsAlways e := by
  refine loopW_flowsAlways (fun n a => ?_) hD
  obtain ⟨c, hc⟩ := hf n a
  exact ⟨_, by simp only [mapBody, hc]; rfl⟩

theorem mapGen_flowsAlways {D : Dataset σ (Smp C) κ} {f : GenFn C C'} {st : Bool} (hf : ∀ n a, (f n a).1 ≠ [] ∧ (f n a).2 = .done) (hR : D.RestoresSamples)
    (hD : D.FlowsAlways false) : (mapGenD D f st).FlowsAlways false := by
  refine wrap_flowsAlways' (inner := false)
    (fun x => (∀ key off, x.gen = some (key, off) → ∃ a, D.restoreSample key = some a) ∧ match x.ctl with
      | .start => True
      | .loop => True
      | .got a => D.restoreSample a.key = some a
      | .group _ _ _ _ _ e => e = .done
      | .done => False)
    (fun x => match x.ctl with
      | .start => 9
      | .loop => 3
      | .got _ => 2
      | .group _ _ _ _ [] _ => 5
      | .group _ _ _ _ (_ :: _) _ => 1
      | .done => 0)
    ⟨by simp [mapGenW], trivial⟩ ?_ (fun x hx => ⟨hx.1, trivial⟩) hD
  rintro ⟨n, g, c⟩ ⟨hg, h⟩
  simp only at hg h
  cases c with
  | start =>
    cases g with
    | none => exact ⟨⟨by simp, trivial⟩, by simp⟩
    | some g =>
      obtain ⟨key, off⟩ := g
      obtain ⟨a, ha⟩ := hg key off rfl
      simp only [mapGenW, ha]
      refine ⟨⟨?_, (hf n a).2⟩, ?_⟩
      · intro k o e
        cases e
        exact ⟨a, ha⟩
      · generalize (f n a).1.drop off = l
        cases l <;> simp
  | loop => exact ⟨fun a ⟨s, s', hp, ho⟩ => ⟨⟨hg, hR s a s' hp ho⟩, by simp⟩, fun he => by cases he⟩
  | got a =>
    obtain ⟨h1, h2⟩ := hf n a
    refine ⟨⟨?_, h2⟩, ?_⟩
    · intro k o e
      cases e
      exact ⟨a, h⟩
    · simp only
      cases hl : (f n a).1 with
      | nil => exact absurd hl h1
      | cons => simp
  | group res k j key rest e =>
    subst h
    cases rest with
    | cons c cs =>
      refine ⟨?_, rfl⟩
      intro key off e
      cases g with
      | none => cases e
      | some g => cases e; exact hg _ _ rfl
    | nil => exact ⟨⟨by simp, trivial⟩, by simp⟩
  | done => exact h.elim

theorem batch_flowsAlways {D : Dataset σ (Smp C) κ} {bs : Nat} (hbs : 0 < bs) {dl : Bool} {f : BatchFn C C'} (hf : ∀ i b, ∃ c, f i b = .ok c)
    (hD : D.FlowsAlways false) : (batchD D bs dl f).FlowsAlways false := by
  refine wrap_flowsAlways (inner := false)
    (fun x => (x.ctl = .loop ∧ x.batch.length < bs) ∨ x.ctl = .flush false ∨ x.ctl = .emitted false)
    (fun x => match x.ctl with | .loop => bs - x.batch.length + 1 | .flush _ => 0 | .emitted _ => bs + 5 | .done => 0)
    (.inl ⟨rfl, hbs⟩) ?_ (fun _ _ => .inl ⟨rfl, hbs⟩) hD
  rintro ⟨n, b, ks, c⟩ h
  simp only at h
  rcases h with ⟨rfl, h⟩ | rfl | rfl
  · refine ⟨trivial, fun a => ?_, fun he => by cases he⟩
    split
    · exact ⟨.inr (.inl rfl), by simp⟩
    · rename_i h'
      replace h' : ¬ b.length + 1 = bs := h'
      exact ⟨.inl ⟨rfl, by simp; omega⟩, by simp; omega⟩
  · obtain ⟨c, hc⟩ := hf n b
    simp only [batchW, hc]
    exact .inr (.inr rfl)
  · exact ⟨.inl ⟨rfl, hbs⟩, by simp⟩

theorem pack_flowsAlways {D : Dataset σ (Smp C) κ} {size : Nat} (hs : 0 < size) {pre : PreFn C} {gen : Bool} {f : FinalFn C C'}
    (hpre : ∀ i l, l.length = size → ∃ packs, pre i l = some packs ∧ packs ≠ []) (hsub : PreSub pre)
    (hf : ∀ i l, (f i l).1 ≠ [] ∧ (f i l).2 ≠ .fatal) (hR : D.RestoresSamples) (hD : D.FlowsAlways false) : (packD D size pre gen f).FlowsAlways false := by
  refine wrap_flowsAlways' (inner := false)
    (fun x => (∀ a ∈ x.rb ++ x.pb, D.restoreSample a.key = some a) ∧ x.pb.length = x.lens.sum ∧ x.rb.length ≤ size ∧ match x.ctl with
      | .check r => x.lens = [] → r = 0
      | .fill r => r = 0 ∧ x.lens = []
      | .ended => False
      | .final last => last = false ∧ x.lens ≠ []
      | .sub last _ _ _ _ e => last = false ∧ e ≠ .fatal
      | .drain => False
      | .dead => False)
    (fun x => match x.ctl with
      | .check _ => if x.lens = [] then size + 20 else 5
      | .fill _ => size - x.rb.length + 10
      | .final _ => 4
      | .sub _ _ _ _ [] _ => size + 30
      | .sub _ _ _ _ (_ :: _) _ => 2
      | _ => 0)
    ⟨by simp [packW], rfl, Nat.zero_le _, fun _ => rfl⟩ ?_ ?_ hD
  · rintro ⟨rb, pb, lens, p, q, c⟩ ⟨h0, h1, h2, h3⟩
    simp only at h0 h1 h2 h3
    cases c with
    | check r =>
      simp only [packW]
      by_cases hl : lens = []
      · simp only [hl, if_true]
        refine ⟨⟨h0, by simpa [hl] using h1, h2, h3 hl, rfl⟩, ?_⟩
        simp only [if_true]
        omega
      · simp only [hl, if_false]
        exact ⟨⟨h0, h1, h2, rfl, hl⟩, by simp [hl]⟩
    | fill r =>
      obtain ⟨rfl, rfl⟩ := h3
      obtain rfl : pb = [] := List.length_eq_zero_iff.1 h1
      simp only [packW, List.length_nil, Nat.add_zero]
      split
      · rename_i hlt
        refine ⟨fun a ⟨s, s', hp, ho⟩ => ⟨⟨?_, rfl, by simp; omega, rfl, rfl⟩, by simp; omega⟩, fun he => by cases he⟩
        intro b hb
        simp only [List.append_nil, List.mem_append, List.mem_singleton] at hb
        rcases hb with hb | rfl
        · exact h0 b (by simpa using hb)
        · exact hR s b s' hp ho
      · rename_i hlt
        have he : rb.length = size := by omega
        rw [if_neg (by simp [he]), if_neg (by omega)]
        obtain ⟨packs, hp, hne⟩ := hpre p rb he
        have hrb : rb ≠ [] := by intro e; rw [e] at he; simp at he; omega
        simp only [prePack, ne_eq, not_true_eq_false, if_false, hrb, hp]
        refine ⟨⟨?_, by simp [List.length_flatten], by simp, fun e => absurd (List.map_eq_nil_iff.1 e) hne⟩, ?_⟩
        · intro b hb
          simp only [List.nil_append, List.mem_flatten] at hb
          obtain ⟨l, hl, hb⟩ := hb
          exact h0 b (by simpa using hsub p rb packs hp l hl b hb)
        · simp only [List.map_eq_nil_iff, hne, if_false]
          omega
    | ended => exact h3.elim
    | final last =>
      obtain ⟨rfl, hl⟩ := h3
      cases lens with
      | nil => exact absurd rfl hl
      | cons l ls =>
        obtain ⟨g1, g2⟩ := hf q (pb.take l)
        refine ⟨⟨?_, ?_, h2, rfl, g2⟩, ?_⟩
        · intro b hb
          simp only [List.mem_append] at hb
          refine h0 b (List.mem_append.2 ?_)
          rcases hb with hb | hb
          · exact .inl hb
          · exact .inr (List.mem_of_mem_drop hb)
        · simp only [List.length_drop, List.sum_cons] at h1 ⊢
          omega
        · simp only
          cases hl : (f q (pb.take l)).1 with
          | nil => exact absurd hl g1
          | cons => simp
    | sub last idx j keys rest e =>
      obtain ⟨rfl, he⟩ := h3
      cases rest with
      | cons c cs => exact ⟨h0, h1, h2, rfl, he⟩
      | nil =>
        simp only [packW, he, if_false, Bool.false_eq_true]
        refine ⟨⟨h0, h1, h2, fun _ => rfl⟩, ?_⟩
        simp only
        split <;> omega
    | drain => exact h3.elim
    | dead => exact h3.elim
  · rintro ⟨rb, pb, lens, p, q, c⟩ ⟨h0, h1, h2, _⟩
    simp only at h0 h1 h2
    have e1 := mapM_restore (D := D) (l := rb) fun a ha => h0 a (List.mem_append.2 (.inl ha))
    have e2 := mapM_restore (D := D) (l := pb) fun a ha => h0 a (List.mem_append.2 (.inr ha))
    have : (packW D size pre gen f).resume ((packW D size pre gen f).save ⟨rb, pb, lens, p, q, c⟩) = ⟨rb, pb, lens, p, q, .check 0⟩ := by
      simp only [packW, e1, e2]
    rw [this]
    exact ⟨h0, h1, h2, fun _ => rfl⟩

/-! ### Grouping -/

/-- The grouping criterion puts every sample in one of the finitely many groups `G`; the batches of group `k` have `size k` samples, at least one. -/
def GroupsInto (key : GroupFn C K) (batchSize : Option Nat) (G : List K) (size : K → Nat) : Prop :=
  ∀ i a, ∃ k ∈ G, 0 < size k ∧ (key i a = .group k none ∧ batchSize = some (size k) ∨ key i a = .group k (some (size k)) ∧ batchSize = none)

section Group

variable [DecidableEq K]

/-- The number of samples waiting in group `k` -/
def inGroup (B : Buckets K (Smp C)) (k : K) : Nat :=
  match bucketGet k B with
  | some (_, l) => l.length
  | none => 0

theorem inGroup_set (B : Buckets K (Smp C)) (k k' : K) (b : Nat) (l : List (Smp C)) :
    inGroup (bucketSet k b l B) k' = if k' = k then l.length else inGroup B k' := by
  unfold inGroup
  rw [bucketGet_set]
  by_cases h : k' = k
  · rw [if_pos h, if_pos h]
  · rw [if_neg h, if_neg h]

/-- The number of samples that can still come before some group is full -/
def room (G : List K) (size : K → Nat) (B : Buckets K (Smp C)) : Nat := (G.map fun k => size k - inGroup B k).sum

theorem room_lt {G : List K} {size : K → Nat} {B : Buckets K (Smp C)} {k : K} {b : Nat} {l : List (Smp C)} (hk : k ∈ G) (hl : l.length = inGroup B k + 1)
    (hs : inGroup B k < size k) : room G size (bucketSet k b l B) < room G size B := by
  have hle : ∀ j, size j - inGroup (bucketSet k b l B) j ≤ size j - inGroup B j := by
    intro j
    rw [inGroup_set]
    split
    · rename_i h; subst h; omega
    · exact Nat.le_refl _
  have hlt : size k - inGroup (bucketSet k b l B) k < size k - inGroup B k := by
    rw [inGroup_set, if_pos rfl]
    omega
  unfold room
  clear hl hs
  induction G with
  | nil => cases hk
  | cons j G ih =>
    simp only [List.map_cons, List.sum_cons]
    have hsum : (G.map fun k_1 => size k_1 - inGroup (bucketSet k b l B) k_1).sum ≤ (G.map fun k => size k - inGroup B k).sum := by
      clear ih hk
      induction G with
      | nil => exact Nat.le_refl _
      | cons i G ih2 =>
        simp only [List.map_cons, List.sum_cons]
        have := hle i
        omega
    rcases List.mem_cons.1 hk with rfl | hk
    · omega
    · have := ih hk
      have := hle j
      omega

/-- The buckets have the right sizes and are not full, except possibly `k0`, which has been filled. -/
def RoomLeft (size : K → Nat) (B : Buckets K (Smp C)) (full : K → Prop) : Prop :=
  ∀ k b l, bucketGet k B = some (b, l) → b = size k ∧ (full k ∨ l.length < size k)

theorem bucketGet_resume (B : Buckets K (Smp C)) (k : K) :
    bucketGet k ((B.map fun b => (b.1, b.2.1, b.2.2.map (·.key))).map fun b => (b.1, b.2.1, ([] : List (Smp C)))) =
      (bucketGet k B).map fun v => (v.1, []) := by
  induction B with
  | nil => rfl
  | cons p B ih =>
    obtain ⟨k0, v⟩ := p
    simp only [List.map_cons, bucketGet, ih]
    split <;> rfl

theorem group_flowsAlways {D : Dataset σ (Smp C) κ} {fixed : Option Nat} {key : GroupFn C K} {f : BatchFn C C'} {dl : Bool} {G : List K} {size : K → Nat}
    (hk : GroupsInto key fixed G size) (hf : ∀ i b, ∃ c, f i b = .ok c) :
    (D.Flows false → (groupD D fixed key f dl).Flows false) ∧ (D.FlowsAlways false → (groupD D fixed key f dl).FlowsAlways false) := by
  let J : GroupX C K → Prop := fun x =>
    match x.ctl with
    | .loop => RoomLeft size x.buckets fun _ => False
    | .got _ => RoomLeft size x.buckets fun _ => False
    | .flush k => RoomLeft size x.buckets (fun k' => k' = k) ∧ (bucketGet k x.buckets).isSome ∧ 0 < size k
    | .final _ => False
  let μ : GroupX C K → Nat := fun x => 3 * room G size x.buckets + match x.ctl with | .loop => 2 | .got _ => 1 | _ => 0
  have hi : J (groupW D fixed key f dl).init := by
    intro k b l h
    cases h
  have hact : ∀ x, J x → ((groupW D fixed key f dl).act x).Goes false false (fun _ => True) J μ x := by
    rintro ⟨gi, bi, B, c⟩ h
    cases c with
    | loop => exact ⟨trivial, fun a => ⟨h, by simp only [μ]; omega⟩, fun he => by cases he⟩
    | got a =>
      obtain ⟨k, hkG, hs, he⟩ := hk gi a
      have hg : groupSize fixed (key gi a) = .group (k, size k) none := by
        rcases he with ⟨e1, e2⟩ | ⟨e1, e2⟩ <;> rw [e1, e2] <;> rfl
      replace h : RoomLeft size B fun _ => False := h
      cases hb : bucketGet k B with
      | none =>
        have hw : inGroup B k = 0 := by unfold inGroup; rw [hb]
        have hlt := room_lt (B := B) (size := size) (b := size k) (l := [a]) hkG (by simp [hw]) (by omega)
        simp only [groupW, hg, hb]
        refine ⟨?_, ?_⟩
        · by_cases h1 : size k ≤ 1
          · simp only [J, h1, if_true]
            refine ⟨?_, ?_, hs⟩
            · intro k' b l h2
              rw [bucketGet_set] at h2
              split at h2
              · rename_i e; subst e; cases h2; exact ⟨rfl, .inl rfl⟩
              · exact ⟨(h k' b l h2).1, .inr ((h k' b l h2).2.resolve_left id)⟩
            · rw [bucketGet_set, if_pos rfl]; rfl
          · simp only [J, h1, if_false]
            intro k' b l h2
            rw [bucketGet_set] at h2
            split at h2
            · rename_i e; subst e; cases h2; exact ⟨rfl, .inr (by simpa using h1)⟩
            · exact h k' b l h2
        · simp only [μ]
          split <;> omega
      | some v =>
        obtain ⟨b, l⟩ := v
        obtain ⟨rfl, hl⟩ := h k b l hb
        replace hl := hl.resolve_left id
        have hw : inGroup B k = l.length := by unfold inGroup; rw [hb]
        have hlt := room_lt (B := B) (size := size) (b := size k) (l := l ++ [a]) hkG (by simp [hw]) (by omega)
        simp only [groupW, hg, hb, if_true]
        refine ⟨?_, ?_⟩
        · by_cases h1 : size k ≤ l.length + 1
          · simp only [J, h1, if_true]
            refine ⟨?_, ?_, hs⟩
            · intro k' b l h2
              rw [bucketGet_set] at h2
              split at h2
              · rename_i e; subst e; cases h2; exact ⟨rfl, .inl rfl⟩
              · exact ⟨(h k' b l h2).1, .inr ((h k' b l h2).2.resolve_left id)⟩
            · rw [bucketGet_set, if_pos rfl]; rfl
          · simp only [J, h1, if_false]
            intro k' b l' h2
            rw [bucketGet_set] at h2
            split at h2
            · rename_i e; subst e; cases h2; exact ⟨rfl, .inr (by simp; omega)⟩
            · exact h k' b l' h2
        · simp only [μ]
          split <;> omega
    | flush k =>
      obtain ⟨h1, h2, h3⟩ := h
      obtain ⟨⟨b, l⟩, hb⟩ := Option.isSome_iff_exists.1 h2
      obtain ⟨c, hc⟩ := hf bi l
      replace hb : bucketGet k B = some (b, l) := hb
      simp only [groupW, groupFlush, hb, hc]
      show RoomLeft size (bucketSet k b [] B) fun _ => False
      intro k' b' l' h4
      rw [bucketGet_set] at h4
      split at h4
      · rename_i e; subst e; cases h4; exact ⟨(h1 _ _ _ hb).1, .inr (by simpa using h3)⟩
      · rename_i e
        exact ⟨(h1 k' b' l' h4).1, .inr ((h1 k' b' l' h4).2.resolve_left e)⟩
    | final ks => exact h.elim
  have hres : ∀ x, J x → J ((groupW D fixed key f dl).resume ((groupW D fixed key f dl).save x)) := by
    intro x hx
    show RoomLeft size ((x.buckets.map fun b => (b.1, b.2.1, b.2.2.map (·.key))).map fun b => (b.1, b.2.1, ([] : List (Smp C)))) fun _ => False
    intro k b l h
    rw [bucketGet_resume] at h
    cases hb : bucketGet k x.buckets with
    | none => rw [hb] at h; cases h
    | some v =>
      rw [hb] at h
      cases h
      obtain ⟨gi, bi, B, c⟩ := x
      have key : ∀ full : K → Prop, RoomLeft size B full → (full k → 0 < size k) → v.1 = size k ∧ (False ∨ ([] : List (Smp C)).length < size k) := by
        intro full hr hfull
        obtain ⟨h1, h2⟩ := hr k v.1 v.2 hb
        refine ⟨h1, .inr ?_⟩
        rcases h2 with h2 | h2
        · exact hfull h2
        · exact Nat.lt_of_le_of_lt (Nat.zero_le _) h2
      cases c with
      | loop => exact key _ hx False.elim
      | got a => exact key _ hx False.elim
      | flush k0 =>
        obtain ⟨h1, h2, h3⟩ := hx
        exact key _ h1 (by rintro rfl; exact h3)
      | final ks => exact hx.elim
  exact ⟨wrap_flows J μ hi hact, wrap_flowsAlways J μ hi hact hres⟩

end Group

end Verif.Stream

namespace Verif.Pipeline

open Verif.Stream Verif.Wds

variable {B C K ρ : Type}

/-- The function gives at least one sample for every sample. -/
def UserMap.Accepts : UserMap C → Prop
  | .plain f _ => ∀ n a, ∃ c, f n a = .ok c
  | .gen f _ => ∀ n a, (f n a).1 ≠ [] ∧ (f n a).2 ≠ .fatal

/-- Every sample of the dataset can be loaded: the index agrees with the tar files, `load_sample` succeeds, and `shuffle_over_epochs` is not 0. -/
structure Disk.Loads (d : Disk B C) : Prop where
  counted : d.Counted
  load : ∀ n a, ∃ c, d.load n a = .ok c
  mode : ∀ n, d.shuffleOverEpochs = .over n → 0 < n

/-- The functions of the task encoder accept everything: cooking, encoding, batching and encoding of batches succeed; for a full buffer at least one pack is selected, and it
can be packed. Sizes are positive. If samples are grouped, there are only finitely many groups, each with its batch size, and batching succeeds. -/
structure Encoder.Accepts (E : Encoder C K) (batchSize packing : Option Nat) : Prop where
  cook : ∀ f, E.cook = some f → f.Accepts
  encode : ∀ f, E.encode = some f → f.Accepts
  encodeBatch : ∀ f, E.encodeBatch = some f → f.Accepts
  group : ∀ key, E.group = some key → (∃ G size, GroupsInto key batchSize G size) ∧ ∀ i b, ∃ c, E.batch i b = .ok c
  batch : ∀ n, batchSize = some n → 0 < n ∧ ∀ i b, ∃ c, E.batch i b = .ok c
  pack : ∀ n, packing = some n → 0 < n ∧ ∀ p, E.pack = some p → (∀ i l, l.length = n → ∃ packs, p.1 i l = some packs ∧ packs ≠ []) ∧
    ∀ i l, (p.2.2 i l).1 ≠ [] ∧ (p.2.2 i l).2 ≠ .fatal

theorem mapStage_flows {u : Option (UserMap C)} (hu : ∀ f, u = some f → f.Accepts) {A : AnyDs C} (h : A.D.Flows false) : (mapStage u A).D.Flows false := by
  unfold mapStage
  split
  · exact h
  · exact map_flows (hu _ rfl) h
  · exact mapGen_flows (hu _ rfl) h

theorem onlyIf_flows {st e : Bool} {A : AnyDs C} (h : A.D.Flows e) : (onlyIf st A).D.Flows e := by
  refine flows_of (fun s => ∃ evs, A.D.Run A.D.init evs s) ⟨_, .nil⟩ ?_
  intro s hs
  exact h.step hs

theorem buildBatch_flows [DecidableEq K] {E : Encoder C K} {batchSize packing : Option Nat} (h : E.Accepts batchSize packing) {dl : Bool}
    {A A' : AnyDs C} (hD : A.D.Flows false) (hb : buildBatch E batchSize dl packing A = .ok A') : A'.D.Flows false := by
  unfold buildBatch at hb
  have h1 : ∀ A1, packStage E packing A = .ok A1 → A1.D.Flows false := by
    intro A1 h1
    unfold packStage at h1
    cases hp : packing with
    | none => rw [hp] at h1; cases h1; exact hD
    | some n =>
      simp only [hp] at h1
      cases hq : E.pack with
      | none => simp [hq] at h1
      | some q =>
        obtain ⟨pre, gen, f⟩ := q
        obtain ⟨g1, g2⟩ := h.pack n hp
        obtain ⟨g3, g4⟩ := g2 _ hq
        simp only [hq] at h1
        cases h1
        exact onlyIf_flows (pack_flows g1 g3 g4 hD)
  split at hb
  · cases hb
  · rename_i A1 hA1
    have h2 := h1 _ hA1
    unfold batchStage at hb
    cases hg : E.group with
    | some key =>
      simp only [hg] at hb
      cases hb
      obtain ⟨⟨G, size, g1⟩, g2⟩ := h.group key hg
      exact onlyIf_flows (A := ⟨_, _, groupD A1.D batchSize key E.batch dl⟩) ((group_flowsAlways g1 g2).1 h2)
    | none =>
    simp only [hg] at hb
    cases hbs : batchSize with
    | some n =>
      simp only [hbs] at hb
      cases hb
      obtain ⟨g1, g2⟩ := h.batch n hbs
      exact mapStage_flows h.encodeBatch (onlyIf_flows (batch_flows g1 g2 h2))
    | none =>
      simp only [hbs] at hb
      split at hb
      · cases hb
      · cases hb
        exact h2

/-- Every slice of a well-formed dataset has samples. -/
theorem slice_nonempty {d : Disk B C} (hd : d.Ok) (hc : d.Counted) {p : List Sharder.Subshards}
    (hp : (Sharder.samplesOf p).Sublist (Sharder.samplesOf d.shards)) (hpos : ∀ s ∈ p, 0 < s.head.count) {s : Sharder.Subshards} (hs : s ∈ p) :
    (mkSlice d.tars s.head.name s.head.offset s.head.count).samples ≠ [] := by
  intro e
  have h1 : (Sharder.samplesOf [s]).Sublist (Sharder.samplesOf p) := by
    unfold Sharder.samplesOf
    rw [List.flatMap_def, List.flatMap_def]
    exact ((List.singleton_sublist.2 hs).map _).flatten
  have h2 := leaves_slices hd hc (h1.trans hp)
  simp only [List.map_cons, List.map_nil, List.flatMap_cons, List.flatMap_nil, List.append_nil, e] at h2
  have h3 : (Sharder.samplesOf [s]).flatten = [] := h2.symm
  have hn := hpos s hs
  rw [Sharder.samplesOf, List.flatMap_cons, List.flatMap_nil, List.append_nil, List.flatten_eq_nil_iff] at h3
  have h4 := h3 (s.sampleAt 0) (List.mem_map.2 ⟨0, List.mem_range.2 hn, rfl⟩)
  simp [Sharder.Subshards.sampleAt, Sharder.Subshards.cols] at h4

theorem buildPart_flows (R : WRng ρ) {d : Disk B C} (hd : d.Ok) {w : Sharder.WorkerConfig} (hr : w.rank < w.worldSize) (rot : Nat) {i : Nat}
    (hi : i < w.workers) (hen : d.Enough w) (hl : d.Loads) {D} (hD : buildPart R d true w rot i = .ok D) : D.Flows false := by
  obtain ⟨p, h1, h2, h3, h4, h5, _⟩ := slicesFor_ok hd hr rot hi
  unfold buildPart at hD
  rw [h1] at hD
  cases hD
  have hids := ids_nodup d true h3
  have hv := loaderCfg_valid hd true (.inl rfl) h2
  have hne : (loaderCfg d true (p.map fun s => mkSlice d.tars s.head.name s.head.offset s.head.count)).shards ≠ [] := by
    simpa [loaderCfg] using h5 hen
  have hsl : ∀ s ∈ (loaderCfg d true (p.map fun s => mkSlice d.tars s.head.name s.head.offset s.head.count)).shards, s.samples ≠ [] := by
    intro s hs
    obtain ⟨t, ht, rfl⟩ := List.mem_map.1 hs
    exact slice_nonempty hd hl.counted h4 h2 ht
  refine map_flows hl.load ?_
  by_cases hm : (loaderCfg d true (p.map fun s => mkSlice d.tars s.head.name s.head.offset s.head.count)).mode = .replace
  · exact (C32_replacement_live hids hv hm hne hsl false).flows_endless (C32_replacement_never_ends hids hv hm hne false)
  · refine (C32_live hids hv hm (fun _ => ?_) false).flows_endless (C32_never_ends hids hv hm rfl hne false)
    obtain ⟨s, hs⟩ := List.exists_mem_of_ne_nil _ hne
    obtain ⟨x, hx⟩ := List.exists_mem_of_ne_nil _ (hsl s hs)
    apply List.ne_nil_of_mem (a := x)
    refine List.mem_flatten.2 ⟨_, List.mem_replicate.2 ⟨?_, rfl⟩, List.mem_flatten.2 ⟨_, List.mem_map.2 ⟨s, hs, rfl⟩, hx⟩⟩
    unfold Cfg.copies
    split
    · rename_i n hn
      exact Nat.ne_of_gt (hl.mode n hn)
    · exact Nat.one_ne_zero

theorem buildParts_flows (R : Rngs ρ) {w : Sharder.WorkerConfig} (hr : w.rank < w.worldSize) {i : Nat} (hi : i < w.workers)
    (l : List (Disk B C × Nat)) (h : ∀ q ∈ l, q.1.Ok ∧ q.1.Enough w ∧ q.1.Loads) (j : Nat) {Ds} (hD : buildParts R true w i j l = .ok Ds) :
    ∀ D ∈ Ds, D.Flows false := by
  induction l generalizing j Ds with
  | nil => cases hD; simp
  | cons q l ih =>
    obtain ⟨d, rot⟩ := q
    obtain ⟨h1, h2, h3⟩ := h (d, rot) (by simp)
    unfold buildParts at hD
    split at hD
    · rename_i D Ds' g1 g2
      cases hD
      intro E hE
      rcases List.mem_cons.1 hE with rfl | hE
      · exact buildPart_flows (R.reader j) h1 hr rot hi h2 h3 g1
      · exact ih (fun q hq => h q (by simp [hq])) (j + 1) g2 E hE
    · cases hD
    · cases hD

theorem trainSource_flows (R : Rngs ρ) {ds : List (Disk B C)} {w : Sharder.WorkerConfig} (hr : w.rank < w.worldSize) {i : Nat}
    (hi : i < w.workers) (h : ∀ d ∈ ds, d.Ok ∧ d.Enough w ∧ d.Loads) {A : AnyDs C} (hA : trainSource R ds w i = .ok A) : A.D.Flows false := by
  match ds, h with
  | [], _ => cases hA
  | [d], h =>
    obtain ⟨h1, h2, h3⟩ := h d (by simp)
    simp only [trainSource] at hA
    split at hA
    · cases hA
    · rename_i D hD
      cases hA
      exact buildPart_flows (R.reader 0) h1 hr 0 hi h2 h3 hD
  | d :: d' :: l, h =>
    simp only [trainSource] at hA
    split at hA
    · cases hA
    · cases hA
    · rename_i D Ds hD
      cases hA
      have h1 := buildParts_flows R hr hi _ (fun q hq => h q.1 (List.of_mem_zip hq).1) 0 hD
      obtain ⟨Ds', g1, g2, g3⟩ := buildParts_train R hr hi
        ((d :: d' :: l).zip (Sharder.rotationOffsets ((d :: d' :: l).map Disk.len) w.globalWorkers))
        (fun q hq => ⟨(h q.1 (List.of_mem_zip hq).1).1, (h q.1 (List.of_mem_zip hq).1).2.1⟩) 0
      rw [hD] at g1
      cases g1
      exact blend_flows (Nat.succ_pos _) (fun k _ => (g3 _ (nth_mem D Ds k)).2) fun k => h1 _ (nth_mem D Ds k)

theorem shuffleStage_flows (R : Rngs ρ) (size : Option Nat) {A : AnyDs C} (h : A.D.Flows false) : (shuffleStage R size A).D.Flows false := by
  cases size with
  | none => exact h
  | some n =>
    by_cases hn : 1 < n
    · have e : shuffleStage R (some n) A = ⟨_, _, shuffleD A.D R.shuffle n⟩ := if_pos hn
      rw [e]
      exact shuffle_flows (by omega) h
    · have e : shuffleStage R (some n) A = A := if_neg hn
      rw [e]
      exact h

theorem logStage_flows {logging e : Bool} {A : AnyDs C} (h : A.D.Flows e) : (logStage logging A).D.Flows e := by
  cases logging with
  | true => exact log_flows h
  | false => exact h

theorem epochStage_flows {length nw i : Nat} {A : AnyDs C} (h : A.D.Flows false) : (epochStage length nw i A).D.Flows (decide (0 < length)) := by
  by_cases hl : 0 < length
  · have e : epochStage length nw i A = ⟨_, _, epochizeD A.D length nw i⟩ := if_pos hl
    rw [e, decide_eq_true hl]
    exact epochize_flows h
  · have e : epochStage length nw i A = A := if_neg hl
    rw [e, decide_eq_false hl]
    exact h

/-- **C77, uninterrupted.** Also for generator functions. -/
theorem C77_train_flows [DecidableEq K] (R : Rngs ρ) (E : Encoder C K) (ds : List (Disk B C)) (o : TrainOpts) (w : Sharder.WorkerConfig) (i : Nat)
    (hne : ds ≠ []) (hds : ∀ d ∈ ds, d.Ok ∧ d.Enough w ∧ d.Loads) (hr : w.rank < w.worldSize) (hi : i < w.workers)
    (hE : E.Accepts o.batchSize o.packing) (hF : E.Fits o.batchSize o.packing) :
    ∃ A, trainDs R E ds o w i = .ok A ∧ ∀ evs s, A.D.Run A.D.init evs s →
      (∃ a s', Obs A.D.step s (.item a s')) ∨ (0 < o.epochLength ∧ ∃ s', Obs A.D.step s (.fin s')) := by
  obtain ⟨A, h1, _⟩ := trainSource_ok R hne hr hi fun d hd => ⟨(hds d hd).1, (hds d hd).2.1⟩
  obtain ⟨A', h4⟩ := buildBatch_ok hF o.dropLast (mapStage E.encode (mapStage E.cook (shuffleStage R o.shuffleSize A)))
  refine ⟨logStage o.logging (epochStage o.epochLength w.numWorkers i A'), by simp only [trainDs, h1, h4], ?_⟩
  have h5 := trainSource_flows R hr hi hds h1
  have h6 := logStage_flows (logging := o.logging) (epochStage_flows (length := o.epochLength) (nw := w.numWorkers) (i := i)
    (buildBatch_flows hE (mapStage_flows hE.encode (mapStage_flows hE.cook (shuffleStage_flows R o.shuffleSize h5))) h4))
  intro evs s hrun
  rcases h6 evs s hrun with h | ⟨h, h'⟩
  · exact .inl h
  · exact .inr ⟨of_decide_eq_true h, h'⟩

theorem onlyIf_flowsAlways {st e : Bool} {A : AnyDs C} (h : A.D.FlowsAlways e) : (onlyIf st A).D.FlowsAlways e := by
  have key : ∀ {s}, (onlyIf st A).D.Paused false s → A.D.Paused false s := by
    intro s hs
    induction hs with
    | init => exact .init
    | item _ ho ih => exact .item ih ho
    | fin _ ho ih => exact .fin ih ho
    | resume _ ih => exact .resume ih
    | reset hr _ _ => cases hr
  exact fun s hs => h s (key hs)

theorem logStage_flowsAlways {logging e : Bool} {A : AnyDs C} (h : A.D.FlowsAlways e) : (logStage logging A).D.FlowsAlways e := by
  cases logging with
  | true => exact log_flowsAlways h
  | false => exact h

theorem epochStage_flowsAlways {length nw i : Nat} {A : AnyDs C} (h : A.D.FlowsAlways false) : (epochStage length nw i A).D.FlowsAlways (decide (0 < length)) := by
  by_cases hl : 0 < length
  · have e : epochStage length nw i A = ⟨_, _, epochizeD A.D length nw i⟩ := if_pos hl
    rw [e, decide_eq_true hl]
    exact epochize_flowsAlways h
  · have e : epochStage length nw i A = A := if_neg hl
    rw [e, decide_eq_false hl]
    exact h

/-- The function gives at least one sample and does not raise after that. -/
def UserMap.EndsWell : UserMap C → Prop
  | .plain _ _ => True
  | .gen f _ => ∀ n a, (f n a).2 = .done

/-- What going on in the middle needs: samples that are waiting (in the packing buffer or in a generator function) can be restored, so the functions before are stateless; generator functions do not end by an exception
(`C14_violated_skip`). -/
structure Encoder.Restorable (E : Encoder C K) (batchSize packing : Option Nat) : Prop where
  cook : ∀ f, E.cook = some f → f.EndsWell
  encode : ∀ f, E.encode = some f → f.EndsWell ∧ (f.Plain ∨ ∀ g, E.cook = some g → g.stateless)
  pack : packing.isSome → (∀ f, E.cook = some f → f.stateless) ∧ (∀ f, E.encode = some f → f.stateless) ∧ ∀ p, E.pack = some p → PreSub p.1
  encodeBatch : ∀ f, E.group = none → E.encodeBatch = some f → f.EndsWell ∧ (f.Plain ∨
    (∀ g, E.cook = some g → g.stateless) ∧ (∀ g, E.encode = some g → g.stateless) ∧ E.batchStateless = true ∧
      (packing.isSome → E.packStateless = true ∧ ∀ p, E.pack = some p → p.2.1 = false → ∃ f, p.2.2 = plainFinal f))

theorem mapStage_flowsAlways {u : Option (UserMap C)} (hu : ∀ f, u = some f → f.Accepts ∧ f.EndsWell) {A : AnyDs C} (hR : ∀ f, u = some f → f.Plain ∨ A.D.RestoresSamples)
    (h : A.D.FlowsAlways false) : (mapStage u A).D.FlowsAlways false := by
  unfold mapStage
  split
  · exact h
  · exact map_flowsAlways (hu _ rfl).1 h
  · rename_i f st
    rcases hR _ rfl with h1 | h1
    · exact h1.elim
    · refine mapGen_flowsAlways (fun n a => ?_) h1 h
      obtain ⟨g1, g2⟩ := hu _ rfl
      exact ⟨(g1 n a).1, g2 n a⟩

/-- **C77.** If loading, cooking, encoding, packing and batching accept all samples, then training never stalls: in every worker and in every history of iterating, saving and going on in a new process, each call
of `next` returns a sample (a batch), or, only with virtual epochs, the end of an epoch; it neither blocks for ever nor raises. Also with generator functions and with grouping if there are finitely many groups, although
going on is not exact for them (`C14_violated_index`, `C29_violated`). Missing: generator functions that end by an exception (`SkipSample`), where going on can raise (`C14_violated_skip`). -/
theorem C77_train_never_stalls_partial [DecidableEq K] (R : Rngs ρ) (E : Encoder C K) (ds : List (Disk B C)) (o : TrainOpts) (w : Sharder.WorkerConfig) (i : Nat)
    (hne : ds ≠ []) (hds : ∀ d ∈ ds, d.Ok ∧ d.Enough w ∧ d.Loads) (hr : w.rank < w.worldSize) (hi : i < w.workers)
    (hE : E.Accepts o.batchSize o.packing) (hS : E.Restorable o.batchSize o.packing) (hF : E.Fits o.batchSize o.packing) :
    ∃ A, trainDs R E ds o w i = .ok A ∧ ∀ s, A.D.Paused false s →
      (∃ a s', Obs A.D.step s (.item a s')) ∨ (0 < o.epochLength ∧ ∃ s', Obs A.D.step s (.fin s')) := by
  obtain ⟨A, h1, h2⟩ := trainSource_ok R hne hr hi fun d hd => ⟨(hds d hd).1, (hds d hd).2.1⟩
  have h3 := shuffleStage_ok R o.shuffleSize h2
  have h4 := (shuffleStage_flows R o.shuffleSize (trainSource_flows R hr hi hds h1)).flowsAlways h3.resumes
  have h5 := mapStage_flowsAlways (fun f hf => ⟨hE.cook f hf, hS.cook f hf⟩) (fun _ _ => .inr h3.restores) h4
  have h6 : (∀ g, E.cook = some g → g.stateless) → (mapStage E.cook (shuffleStage R o.shuffleSize A)).D.RestoresSamples :=
    fun h => mapStage_restores h h3.restores
  have h7 := mapStage_flowsAlways (fun f hf => ⟨hE.encode f hf, (hS.encode f hf).1⟩) (fun f hf => (hS.encode f hf).2.imp id h6) h5
  have h8 : (∀ g, E.cook = some g → g.stateless) → (∀ g, E.encode = some g → g.stateless) →
      (mapStage E.encode (mapStage E.cook (shuffleStage R o.shuffleSize A))).D.RestoresSamples := fun h h' => mapStage_restores h' (h6 h)
  obtain ⟨A', h9⟩ := buildBatch_ok hF o.dropLast (mapStage E.encode (mapStage E.cook (shuffleStage R o.shuffleSize A)))
  have h11 : trainDs R E ds o w i = .ok (logStage o.logging (epochStage o.epochLength w.numWorkers i A')) := by simp only [trainDs, h1, h9]
  generalize mapStage E.encode (mapStage E.cook (shuffleStage R o.shuffleSize A)) = A0 at h7 h8 h9
  have h10 : A'.D.FlowsAlways false := by
    unfold buildBatch at h9
    have hp : ∀ A1, packStage E o.packing A0 = .ok A1 → A1.D.FlowsAlways false ∧
        ((∀ g, E.cook = some g → g.stateless) → (∀ g, E.encode = some g → g.stateless) →
          (o.packing.isSome → E.packStateless = true ∧ ∀ p, E.pack = some p → p.2.1 = false → ∃ f, p.2.2 = plainFinal f) → A1.D.RestoresSamples) := by
      intro A1 hp
      unfold packStage at hp
      cases hq : o.packing with
      | none => rw [hq] at hp; cases hp; exact ⟨h7, fun a b _ => h8 a b⟩
      | some n =>
        simp only [hq] at hp
        cases hk : E.pack with
        | none => simp [hk] at hp
        | some q =>
          obtain ⟨pre, gen, f⟩ := q
          simp only [hk] at hp
          cases hp
          obtain ⟨g1, g2⟩ := hE.pack n hq
          obtain ⟨g3, g4⟩ := g2 _ hk
          obtain ⟨g5, g6, g7⟩ := hS.pack (by rw [hq]; rfl)
          refine ⟨onlyIf_flowsAlways (A := ⟨_, _, _⟩) (pack_flowsAlways g1 g3 (g7 _ hk) g4 (h8 g5 g6) h7), fun a b hst => ?_⟩
          obtain ⟨e0, e1⟩ := hst rfl
          rw [e0]
          exact onlyIf_restores (C34_packing _ _ _ (g7 _ hk) _ _ (e1 _ rfl) _ (h8 a b))
    cases hq : packStage E o.packing A0 with
    | error e => rw [hq] at h9; cases h9
    | ok A1 =>
      obtain ⟨hp1, hp2⟩ := hp A1 hq
      rw [hq] at h9
      simp only at h9
      unfold batchStage at h9
      cases hg : E.group with
      | some key =>
        simp only [hg] at h9
        cases h9
        obtain ⟨⟨G, size, g1⟩, g2⟩ := hE.group key hg
        exact onlyIf_flowsAlways (A := ⟨_, _, groupD A1.D o.batchSize key E.batch o.dropLast⟩) ((group_flowsAlways g1 g2).2 hp1)
      | none =>
        simp only [hg] at h9
        cases hbs : o.batchSize with
        | some n =>
          simp only [hbs] at h9
          cases h9
          obtain ⟨g1, g2⟩ := hE.batch n hbs
          refine mapStage_flowsAlways (fun f hf => ⟨hE.encodeBatch f hf, (hS.encodeBatch f hg hf).1⟩) (fun f hf => ?_) (onlyIf_flowsAlways (A := ⟨_, _, _⟩) (batch_flowsAlways g1 g2 hp1))
          refine (hS.encodeBatch f hg hf).2.imp id ?_
          rintro ⟨e1, e2, e3, e4⟩
          rw [e3]
          exact onlyIf_restores (C34_batch _ _ g1 _ _ _ (fun i b => by obtain ⟨c, hc⟩ := g2 i b; rw [hc]; rfl) (hp2 e1 e2 e4))
        | none =>
          simp only [hbs] at h9
          split at h9
          · cases h9
          · cases h9
            exact hp1
  refine ⟨logStage o.logging (epochStage o.epochLength w.numWorkers i A'), h11, fun s hs => ?_⟩
  · rcases logStage_flowsAlways (epochStage_flowsAlways (length := o.epochLength) (nw := w.numWorkers) (i := i) h10) s hs with h | ⟨h, h'⟩
    · exact .inl h
    · exact .inr ⟨of_decide_eq_true h, h'⟩

/-- Grouping with infinitely many groups can block for ever: if each sample has its own group, `next` never returns, over any endless source. -/
theorem C77_violated_groups {σ κ C C' : Type} (D : Dataset σ (Smp C) κ) (hD : D.Flows false) (f : BatchFn C C') (dl : Bool) :
    ∀ o, ¬ Obs (groupD D (some 2) (fun i _ => GroupRes.group i none) f dl).step (groupD D (some 2) (fun i _ => GroupRes.group i none) f dl).init o := by
  let W := groupW D (some 2) (fun i _ => GroupRes.group i none) f dl
  have key : ∀ {s : σ} {x : GroupX C Nat} {o : Out (σ × GroupX C Nat) (Smp C')}, WObs (Source.single D) W s x o → (∃ evs, D.Run D.init evs s) →
      (x.ctl = .loop ∨ ∃ a, x.ctl = .got a) → (∀ k v, bucketGet k x.buckets = some v → k < x.gidx) → False := by
    intro s x o h
    have hact : ∀ (x : GroupX C Nat), (x.ctl = .loop ∨ ∃ a, x.ctl = .got a) → (∀ k v, bucketGet k x.buckets = some v → k < x.gidx) →
        (∃ a, x.ctl = .got a ∧ W.act x = .tau ⟨x.gidx + 1, x.bidx, bucketSet x.gidx 2 [a] x.buckets, .loop⟩) ∨
        ∃ g, W.act x = .pull () (fun a => { x with ctl := .got a }) g := by
      rintro ⟨gi, bi, B, c⟩ hc hB
      rcases hc with hc | ⟨a, hc⟩ <;> simp only at hc <;> subst hc
      · exact .inr ⟨_, rfl⟩
      · left
        refine ⟨a, rfl, ?_⟩
        cases hb : bucketGet gi B with
        | some v => exact absurd (hB gi v hb) (Nat.lt_irrefl _)
        | none => simp [W, groupW, groupSize, hb]
    induction h with
    | emit h => intro _ hx hB; rcases hact _ hx hB with ⟨a, _, e⟩ | ⟨g, e⟩ <;> rw [e] at h <;> cases h
    | halt h => intro _ hx hB; rcases hact _ hx hB with ⟨a, _, e⟩ | ⟨g, e⟩ <;> rw [e] at h <;> cases h
    | raise h => intro _ hx hB; rcases hact _ hx hB with ⟨a, _, e⟩ | ⟨g, e⟩ <;> rw [e] at h <;> cases h
    | reset h => intro _ hx hB; rcases hact _ hx hB with ⟨a, _, e⟩ | ⟨g, e⟩ <;> rw [e] at h <;> cases h
    | tau h _ ih =>
      intro hs hx hB
      rcases hact _ hx hB with ⟨a, _, e⟩ | ⟨g, e⟩ <;> rw [e] at h <;> cases h
      refine ih hs (.inl rfl) ?_
      intro k v hv
      simp only at hv ⊢
      rw [bucketGet_set] at hv
      split at hv
      · omega
      · exact Nat.lt_succ_of_lt (hB k v hv)
    | pullItem h h2 _ ih =>
      intro hs hx hB
      rcases hact _ hx hB with ⟨a, _, e⟩ | ⟨g, e⟩ <;> rw [e] at h <;> cases h
      obtain ⟨evs, hs⟩ := hs
      exact ih ⟨_, hs.append (.item h2 .nil)⟩ (.inr ⟨_, rfl⟩) hB
    | pullFin h h2 _ ih =>
      intro hs hx hB
      obtain ⟨evs, hs⟩ := hs
      rcases hD _ _ hs with ⟨a, s', h3⟩ | ⟨he, _⟩
      · cases Obs.det h3 h2
      · cases he
    | pullErr h h2 =>
      intro hs hx hB
      obtain ⟨evs, hs⟩ := hs
      rcases hD _ _ hs with ⟨a, s', h3⟩ | ⟨he, _⟩
      · cases Obs.det h3 h2
      · cases he
  intro o h
  exact key (wrap_obs.1 h) ⟨_, .nil⟩ (.inl rfl) (by intro k v hv; cases hv)

/-- Without the condition C77 is false, and quietly: if a mapping function rejects every sample (also if it raises an ordinary exception, which is only logged), then over an endless source `next` never returns. -/
theorem C77_violated_rejects {σ κ C C' : Type} (D : Dataset σ (Smp C) κ) (hD : D.Flows false) (f : MapFn C C') (st : Bool)
    (hf : ∀ n a, f n a = .fail ∨ f n a = .skip) : ∀ o, ¬ Obs (mapD D f st).step (mapD D f st).init o := by
  have key : ∀ {s : σ} {x : LoopX (Smp C)} {o : Out (σ × LoopX (Smp C)) (Smp C')},
      WObs (Source.single D) (loopW (mapBody f) (mapRestore D f st) D.hasSamples) s x o → (∃ evs, D.Run D.init evs s) → x.ctl ≠ .done → False := by
    intro s x o h
    have hbody : ∀ n a, mapBody f n a = .drop := by
      intro n a
      unfold mapBody
      rcases hf n a with e | e <;> rw [e]
    have hact : ∀ (x : LoopX (Smp C)), x.ctl ≠ .done →
        (x.ctl = .loop ∧ (loopW (mapBody f) (mapRestore D f st) D.hasSamples).act x = .pull () (fun a => ⟨x.idx, .got a⟩) ⟨x.idx, .done⟩) ∨
        (loopW (mapBody f) (mapRestore D f st) D.hasSamples).act x = .tau ⟨x.idx + 1, .loop⟩ := by
      rintro ⟨n, c⟩ hx
      cases c with
      | loop => exact .inl ⟨rfl, rfl⟩
      | got a => right; simp only [loopW, hbody]
      | done => exact absurd rfl hx
    induction h with
    | emit h => intro _ hx; rcases hact _ hx with ⟨_, e⟩ | e <;> rw [e] at h <;> cases h
    | halt h => intro _ hx; rcases hact _ hx with ⟨_, e⟩ | e <;> rw [e] at h <;> cases h
    | raise h => intro _ hx; rcases hact _ hx with ⟨_, e⟩ | e <;> rw [e] at h <;> cases h
    | reset h => intro _ hx; rcases hact _ hx with ⟨_, e⟩ | e <;> rw [e] at h <;> cases h
    | tau h _ ih =>
      intro hs hx
      rcases hact _ hx with ⟨_, e⟩ | e <;> rw [e] at h <;> cases h
      exact ih hs (by simp)
    | pullItem h h2 _ ih =>
      intro hs hx
      rcases hact _ hx with ⟨_, e⟩ | e <;> rw [e] at h <;> cases h
      obtain ⟨evs, hs⟩ := hs
      exact ih ⟨_, hs.append (.item h2 .nil)⟩ (by simp)
    | pullFin h h2 _ ih =>
      intro hs hx
      obtain ⟨evs, hs⟩ := hs
      rcases hD _ _ hs with ⟨a, s', h3⟩ | ⟨he, _⟩
      · cases Obs.det h3 h2
      · cases he
    | pullErr h h2 =>
      intro hs hx
      obtain ⟨evs, hs⟩ := hs
      rcases hD _ _ hs with ⟨a, s', h3⟩ | ⟨he, _⟩
      · cases Obs.det h3 h2
      · cases he
  intro o h
  exact key (wrap_obs.1 h) ⟨_, .nil⟩ (by simp [loopW])

end Verif.Pipeline
