import Verif.Wds.ReaderSpec

/-! Lemmas about tar files, indices and readers. -/

namespace Verif.Wds

open Verif.Stream

variable {B : Type}

/-! ## Groups -/

/-- Maximal runs -/
def IsRuns : List (List (Entry B)) → Prop
  | [] => True
  | g :: gs => (∃ e t, g = e :: t ∧ (∀ f ∈ t, f.base = e.base) ∧ ∀ f t', gs.head? = some (f :: t') → f.base ≠ e.base) ∧ IsRuns gs

theorem push_flatten (e : Entry B) (gs : List (List (Entry B))) : (e.push gs).flatten = e :: gs.flatten := by
  unfold Entry.push
  split
  · split <;> simp
  · simp

theorem groups_flatten (l : List (Entry B)) : (groups l).flatten = l := by
  induction l with
  | nil => rfl
  | cons e l ih => rw [groups, push_flatten, ih]

theorem IsRuns.push {gs : List (List (Entry B))} (h : IsRuns gs) (e : Entry B) : IsRuns (e.push gs) := by
  match gs, h with
  | [], _ => exact ⟨⟨e, [], rfl, by simp, by simp⟩, trivial⟩
  | [] :: gs, h => exact absurd h.1 (by simp)
  | (f :: g) :: gs, h =>
    obtain ⟨⟨f', t, h1, h2, h3⟩, h4⟩ := h
    cases h1
    by_cases hb : e.base = f.base
    · rw [show e.push ((f :: g) :: gs) = (e :: f :: g) :: gs by simp [Entry.push, hb]]
      refine ⟨⟨e, f :: g, rfl, ?_, ?_⟩, h4⟩
      · intro f' hf
        rcases List.mem_cons.1 hf with rfl | hf
        · exact hb.symm
        · rw [h2 _ hf, hb]
      · intro f' t' ht
        rw [hb]
        exact h3 f' t' ht
    · rw [show e.push ((f :: g) :: gs) = [e] :: (f :: g) :: gs by simp [Entry.push, hb]]
      refine ⟨⟨e, [], rfl, by simp, ?_⟩, ⟨f, g, rfl, h2, h3⟩, h4⟩
      intro f' t' ht
      simp only [List.head?_cons, Option.some.injEq, List.cons.injEq] at ht
      rw [← ht.1]
      exact fun h => hb h.symm

theorem groups_isRuns (l : List (Entry B)) : IsRuns (groups l) := by
  induction l with
  | nil => trivial
  | cons e l ih => exact ih.push e

theorem push_same {e f : Entry B} {g : List (Entry B)} {gs} (h : e.base = f.base) :
    e.push ((f :: g) :: gs) = (e :: f :: g) :: gs := by
  simp [Entry.push, h]

theorem groups_append_run {e : Entry B} {t l : List (Entry B)} (h : ∀ f ∈ t, f.base = e.base)
    (h' : ∀ f t', (groups l).head? = some (f :: t') → f.base ≠ e.base) :
    groups (e :: (t ++ l)) = (e :: t) :: groups l := by
  induction t generalizing e with
  | nil =>
    rw [List.nil_append, groups]
    unfold Entry.push
    split
    · next f g gs hg =>
      rw [if_neg]
      · rw [hg]
      · intro hb
        rw [hg] at h'
        exact h' f g rfl hb.symm
    · rfl
  | cons f t ih =>
    rw [List.cons_append, groups, ih (e := f)]
    · exact push_same (h f (List.mem_cons_self ..)).symm
    · intro f' hf
      rw [h f' (List.mem_cons_of_mem _ hf), h f (List.mem_cons_self ..)]
    · intro f' t' ht
      rw [h f (List.mem_cons_self ..)]
      exact h' f' t' ht

theorem groups_of_runs {gs : List (List (Entry B))} (h : IsRuns gs) : groups gs.flatten = gs := by
  induction gs with
  | nil => rfl
  | cons g gs ih =>
    obtain ⟨⟨e, t, rfl, h2, h3⟩, h4⟩ := h
    rw [List.flatten_cons, List.cons_append, groups_append_run h2, ih h4]
    rw [ih h4]
    exact h3

theorem IsRuns.drop {gs : List (List (Entry B))} (h : IsRuns gs) (n : Nat) : IsRuns (gs.drop n) := by
  induction n generalizing gs with
  | zero => exact h
  | succ n ih =>
    cases gs with
    | nil => exact h
    | cons g gs => exact ih h.2

theorem IsRuns.take {gs : List (List (Entry B))} (h : IsRuns gs) (n : Nat) : IsRuns (gs.take n) := by
  induction n generalizing gs with
  | zero => trivial
  | succ n ih =>
    cases gs with
    | nil => exact h
    | cons g gs =>
      obtain ⟨⟨e, t, h1, h2, h3⟩, h4⟩ := h
      refine ⟨⟨e, t, h1, h2, fun f t' hf => h3 f t' ?_⟩, ih h4⟩
      cases n with
      | zero => simp at hf
      | succ n => 
        cases gs with
        | nil => simp at hf
        | cons g' gs => simpa using hf

theorem IsRuns.ne_nil {gs : List (List (Entry B))} (h : IsRuns gs) : ∀ g ∈ gs, g ≠ [] := by
  induction gs with
  | nil => simp
  | cons g gs ih =>
    intro g' hg
    rcases List.mem_cons.1 hg with rfl | hg
    · obtain ⟨⟨e, t, rfl, _⟩, _⟩ := h
      simp
    · exact ih h.2 g' hg

/-- The first run of a list -/
theorem groups_cons (e : Entry B) (l : List (Entry B)) :
    groups (e :: l) = (e :: l.takeWhile (fun f => f.base = e.base)) :: groups (l.dropWhile (fun f => f.base = e.base)) := by
  conv => lhs; rw [← List.takeWhile_append_dropWhile (p := fun f : Entry B => decide (f.base = e.base)) (l := l)]
  apply groups_append_run
  · intro f hf
    have := List.all_eq_true.1 List.all_takeWhile f hf
    simpa using this
  · intro f t' hf
    cases hd : l.dropWhile (fun f => decide (f.base = e.base)) with
    | nil =>
      rw [hd] at hf
      simp [groups] at hf
    | cons f' l' =>
      have hne : ¬ f'.base = e.base := by
        have := List.head?_dropWhile_not (fun f : Entry B => decide (f.base = e.base)) l
        rw [hd] at this
        simpa using this
      rw [hd] at hf
      have hfl := groups_flatten (f' :: l')
      cases hg : groups (f' :: l') with
      | nil => rw [hg] at hf; cases hf
      | cons g gs =>
        rw [hg] at hf hfl
        simp only [List.head?_cons, Option.some.injEq] at hf
        subst hf
        simp only [List.flatten_cons, List.cons_append, List.cons.injEq] at hfl
        rw [hfl.1]
        exact hne

/-! ## Bytes -/

theorem Sized.tail {m : Member B} {l : List (Member B)} (h : Sized (m :: l)) : Sized l := fun m' hm => h m' (List.mem_cons_of_mem _ hm)

theorem Sized.append_left {l l' : List (Member B)} (h : Sized (l ++ l')) : Sized l := fun m' hm => h m' (List.mem_append_left _ hm)

theorem Sized.append_right {l l' : List (Member B)} (h : Sized (l ++ l')) : Sized l' := fun m' hm => h m' (List.mem_append_right _ hm)

@[simp] theorem bytes_nil : bytes ([] : List (Member B)) = 0 := rfl
@[simp] theorem bytes_cons (m : Member B) (l : List (Member B)) : bytes (m :: l) = m.size + bytes l := by simp [bytes]
@[simp] theorem bytes_append (l l' : List (Member B)) : bytes (l ++ l') = bytes l + bytes l' := by simp [bytes]

theorem dropBytes_append {pre : List (Member B)} (h : Sized pre) (suf : List (Member B)) : dropBytes (bytes pre) (pre ++ suf) = some suf := by
  induction pre with
  | nil => rw [bytes_nil, List.nil_append, dropBytes.eq_def]
  | cons m l ih =>
    have hm := h m (List.mem_cons_self ..)
    rw [bytes_cons]
    obtain ⟨k, hk⟩ : ∃ k, m.size + bytes l = k + 1 := ⟨m.size + bytes l - 1, by omega⟩
    rw [hk, List.cons_append, dropBytes, if_pos (by omega), show k + 1 - m.size = bytes l by omega]
    exact ih h.tail

theorem takeBytes_append {mid : List (Member B)} (h : Sized mid) (post : List (Member B)) :
    takeBytes (bytes mid) (mid ++ post) = some mid := by
  induction mid with
  | nil => rw [bytes_nil, List.nil_append, takeBytes.eq_def]
  | cons m l ih =>
    have hm := h m (List.mem_cons_self ..)
    rw [bytes_cons]
    obtain ⟨k, hk⟩ : ∃ k, m.size + bytes l = k + 1 := ⟨m.size + bytes l - 1, by omega⟩
    rw [hk, List.cons_append, takeBytes, if_pos (by omega), show k + 1 - m.size = bytes l by omega, ih h.tail]
    rfl

theorem openItar_append {pre mid post : List (Member B)} (h : Sized (pre ++ mid ++ post)) :
    openItar (pre ++ mid ++ post) (bytes pre) (bytes mid) = some mid := by
  unfold openItar
  rw [List.append_assoc, dropBytes_append h.append_left.append_left]
  exact takeBytes_append h.append_left.append_right post

/-! ## The index -/

theorem entries_append (l l' : List (Member B)) : entries (l ++ l') = entries l ++ entries l' := List.filterMap_append

/-- The groups behind those files that continue the sample `last` -/
def groupsAfter (last : Option Name) (l : List (Entry B)) : List (List (Entry B)) :=
  groups (l.dropWhile (fun e => some e.base = last))

theorem groupsAfter_none (l : List (Entry B)) : groupsAfter none l = groups l := by
  unfold groupsAfter
  congr 1
  cases l <;> simp

theorem index_spec {last : Option Name} {pos : Nat} {t : List (Member B)} {i p : Nat} (h : (indexFrom last pos t)[i]? = some p) :
    ∃ pre suf, t = pre ++ suf ∧ p = pos + bytes pre ∧
      entries pre = (entries t).takeWhile (fun e => some e.base = last) ++ ((groupsAfter last (entries t)).take i).flatten := by
  induction t generalizing last pos i with
  | nil =>
    cases i with
    | zero =>
      simp only [indexFrom, List.getElem?_cons_zero, Option.some.injEq] at h
      exact ⟨[], [], rfl, by simp [h], by simp [entries]⟩
    | succ i => simp [indexFrom] at h
  | cons m l ih =>
    unfold indexFrom at h
    cases hp : m.part with
    | none =>
      simp only [hp] at h
      obtain ⟨pre, suf, h1, h2, h3⟩ := ih h
      have he : entries (m :: l) = entries l := by simp [entries, hp]
      refine ⟨m :: pre, suf, by rw [h1]; rfl, by rw [h2, bytes_cons]; omega, ?_⟩
      rw [he, ← h3]
      simp [entries, hp]
    | some be =>
      obtain ⟨b, x⟩ := be
      have he : ∀ l : List (Member B), entries (m :: l) = ⟨b, x, m.data⟩ :: entries l := by intro l; simp [entries, hp]
      simp only [hp] at h
      by_cases hl : last = some b
      · subst hl
        simp only [ne_eq, not_true_eq_false, if_false] at h
        obtain ⟨pre, suf, h1, h2, h3⟩ := ih h
        refine ⟨m :: pre, suf, by rw [h1]; rfl, by rw [h2, bytes_cons]; omega, ?_⟩
        rw [he, he, h3]
        simp [groupsAfter]
      · rw [if_pos hl] at h
        have hl' : ¬ some b = last := fun e => hl e.symm
        cases i with
        | zero =>
          simp only [List.getElem?_cons_zero, Option.some.injEq] at h
          exact ⟨[], m :: l, rfl, by simp [h], by rw [he]; simp [entries, hl']⟩
        | succ i =>
          simp only [List.getElem?_cons_succ] at h
          obtain ⟨pre, suf, h1, h2, h3⟩ := ih h
          refine ⟨m :: pre, suf, by rw [h1]; rfl, by rw [h2, bytes_cons]; omega, ?_⟩
          rw [he, he, h3]
          have e1 : groupsAfter last (⟨b, x, m.data⟩ :: entries l) = groups (⟨b, x, m.data⟩ :: entries l) := by
            simp [groupsAfter, hl']
          rw [e1, groups_cons]
          simp [hl', groupsAfter]

theorem index_length (last : Option Name) (pos : Nat) (t : List (Member B)) :
    (indexFrom last pos t).length = (groupsAfter last (entries t)).length + 1 := by
  induction t generalizing last pos with
  | nil => simp [indexFrom, entries, groupsAfter, groups]
  | cons m l ih =>
    unfold indexFrom
    cases hp : m.part with
    | none =>
      have he : entries (m :: l) = entries l := by simp [entries, hp]
      rw [he]
      exact ih _ _
    | some be =>
      obtain ⟨b, x⟩ := be
      have he : entries (m :: l) = ⟨b, x, m.data⟩ :: entries l := by simp [entries, hp]
      rw [he]
      by_cases hl : last = some b
      · subst hl
        simp only [ne_eq, not_true_eq_false, if_false]
        rw [ih]
        simp [groupsAfter]
      · have hl' : ¬ some b = last := fun e => hl e.symm
        simp only
        rw [if_pos hl, List.length_cons, ih]
        have e1 : groupsAfter last (⟨b, x, m.data⟩ :: entries l) = groups (⟨b, x, m.data⟩ :: entries l) := by
          simp [groupsAfter, hl']
        rw [e1, groups_cons]
        simp [groupsAfter]

theorem tarCount_eq (tar : List (Member B)) : tarCount tar = (groups (entries tar)).length := by
  unfold tarCount tarIndex
  rw [index_length, groupsAfter_none]
  rfl

theorem byteOffset_spec {tar : List (Member B)} {i p : Nat} (h : byteOffset (tarIndex tar) i = some p) :
    ∃ pre suf, tar = pre ++ suf ∧ p = bytes pre ∧ entries pre = ((groups (entries tar)).take i).flatten := by
  unfold byteOffset at h
  by_cases hi : i = 0
  · subst hi
    rw [if_pos rfl] at h
    cases h
    exact ⟨[], tar, rfl, rfl, by simp [entries]⟩
  · rw [if_neg hi] at h
    obtain ⟨pre, suf, h1, h2, h3⟩ := index_spec h
    refine ⟨pre, suf, h1, by omega, ?_⟩
    rw [h3, groupsAfter_none]
    cases entries tar <;> simp

theorem byteOffset_some {tar : List (Member B)} {i : Nat} (h : i ≤ tarCount tar) : ∃ p, byteOffset (tarIndex tar) i = some p := by
  unfold byteOffset
  split
  · exact ⟨_, rfl⟩
  · rw [tarCount_eq] at h
    have : i < (tarIndex tar).length := by
      unfold tarIndex
      rw [index_length, groupsAfter_none]
      omega
    exact ⟨_, List.getElem?_eq_getElem this⟩

theorem byteOffset_le {tar : List (Member B)} {i p : Nat} (h : byteOffset (tarIndex tar) i = some p) : i ≤ tarCount tar := by
  unfold byteOffset at h
  split at h
  · omega
  · obtain ⟨hl, _⟩ := List.getElem?_eq_some_iff.1 h
    unfold tarIndex at hl
    rw [index_length, groupsAfter_none] at hl
    rw [tarCount_eq]
    omega

theorem take_flatten_lt {gs : List (List (Entry B))} (h : ∀ g ∈ gs, g ≠ []) {a b : Nat} (hab : a < b) (hb : b ≤ gs.length) :
    (gs.take a).flatten.length < (gs.take b).flatten.length := by
  induction gs generalizing a b with
  | nil => simp at hb; omega
  | cons g gs ih =>
    obtain ⟨b, rfl⟩ : ∃ k, b = k + 1 := ⟨b - 1, by omega⟩
    have hg : 0 < g.length := List.length_pos_iff.2 (h g (List.mem_cons_self ..))
    cases a with
    | zero => simp only [List.take_zero, List.flatten_nil, List.length_nil, List.take_succ_cons, List.flatten_cons, List.length_append]; omega
    | succ a =>
      have := ih (fun g' hg' => h g' (List.mem_cons_of_mem _ hg')) (a := a) (b := b) (by omega) (by simpa using hb)
      simp only [List.take_succ_cons, List.flatten_cons, List.length_append]
      omega

/-- A slice is a part of the file, and contains the files of its groups. -/
theorem slice_spec {tar : List (Member B)} (hs : Sized tar) {name : String} {a n : Nat} {sh : Shard}
    (h : mkShard (tarIndex tar) name a n = some sh) :
    ∃ pre mid post, tar = pre ++ mid ++ post ∧ sh = ⟨name, a, n, bytes pre, bytes mid⟩ ∧ entries mid = (sliceGroups tar a n).flatten ∧
      a + n ≤ tarCount tar := by
  unfold mkShard at h
  cases ha : byteOffset (tarIndex tar) a with
  | none => simp [ha] at h
  | some p =>
    cases hb : byteOffset (tarIndex tar) (a + n) with
    | none => simp [ha, hb] at h
    | some q =>
      simp only [ha, hb, Option.some.injEq] at h
      obtain ⟨pre, suf, h1, h2, h3⟩ := byteOffset_spec ha
      obtain ⟨pre', suf', h1', h2', h3'⟩ := byteOffset_spec hb
      have hle := byteOffset_le hb
      have key : ∃ mid, pre' = pre ++ mid := by
        rcases List.append_eq_append_iff.1 (h1.symm.trans h1') with ⟨mid, hm, _⟩ | ⟨mid, hm, _⟩
        · exact ⟨mid, hm⟩
        · by_cases hn : n = 0
          · subst hn
            rw [Nat.add_zero] at hb
            rw [ha] at hb
            cases hb
            rw [hm, bytes_append] at h2
            cases mid with
            | nil => exact ⟨[], by rw [hm]; simp⟩
            | cons m l =>
              have : 0 < m.size := hs m (by rw [h1, hm]; simp)
              rw [bytes_cons] at h2
              omega
          · have hlt := take_flatten_lt (groups_isRuns (entries tar)).ne_nil (a := a) (b := a + n) (by omega)
              (by rw [← tarCount_eq]; exact hle)
            rw [← h3, ← h3', hm, entries_append, List.length_append] at hlt
            omega
      obtain ⟨mid, rfl⟩ := key
      refine ⟨pre, mid, suf', h1', ?_, ?_, hle⟩
      · rw [← h, h2, h2', bytes_append]
        simp
      · rw [entries_append, h3, List.take_add, List.flatten_append] at h3'
        exact List.append_cancel_left h3'

theorem mkShard_some {tar : List (Member B)} {name : String} {a n : Nat} (h : a + n ≤ tarCount tar) :
    ∃ sh, mkShard (tarIndex tar) name a n = some sh := by
  obtain ⟨p, hp⟩ := byteOffset_some (i := a) (tar := tar) (by omega)
  obtain ⟨q, hq⟩ := byteOffset_some (tar := tar) h
  exact ⟨_, by unfold mkShard; simp only [hp, hq]; rfl⟩

theorem sliceGroups_runs (tar : List (Member B)) (a n : Nat) : IsRuns (sliceGroups tar a n) :=
  ((groups_isRuns _).drop a).take n

theorem sliceGroups_length {tar : List (Member B)} {a n : Nat} (h : a + n ≤ tarCount tar) : (sliceGroups tar a n).length = n := by
  rw [tarCount_eq] at h
  unfold sliceGroups
  rw [List.length_take, List.length_drop]
  omega

end Verif.Wds
