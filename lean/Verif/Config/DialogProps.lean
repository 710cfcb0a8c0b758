import Verif.Config.DialogModel
import Verif.Config.FieldProps

/-!
# C102: what `energon prepare` writes can be loaded
-/

namespace Verif.Config

/-- **C102 in full**: whatever parts were found, whatever class of `megatron.energon` (or crude samples) is chosen and whatever the answers are: once the
dialog ends, dataset.yaml can be loaded, every part asked for from the tar files is one that was found, and the sample class gets all its arguments. -/
def C102_statement : Prop :=
  ∀ (classes : Str → Option (List FieldDecl)) (found : List Str) (chosen : Chosen) (want : Bool) (answers : List Str) (d : Definition),
    (∀ name fields, chosen = .cls name fields → classes name = some fields ∧ ∀ k ∈ ownNames, ∃ f ∈ fields, f.name = k) →
    define found chosen want answers = some d →
    createDs classes d = true ∧ ∀ m, d.fieldMap = some m →
      (∀ p ∈ neededParts m, p ∈ found) ∧
      ∀ (fields : List FieldDecl), classes d.sampleType = some fields →
        ∀ (int : Str → Option Int) (sample : List (Str × Val Unit)) (a b : Val Unit), loadSample int fields sample m a b ≠ .error .type

theorem skipped_own (n : Str) : n ∈ skippedNames ↔ n ∈ ownNames := Iff.rfl

theorem askField_spec (found : List Str) (f : FieldDecl) (as : List Str) (r : Option Str) (as' : List Str)
    (h : askField found f as = some (r, as')) :
    (∀ a, r = some a → a ∈ as ∧ answerOk found a = true) ∧ (r = none → ¬ f.required) ∧ ∀ x ∈ as', x ∈ as := by
  induction as with
  | nil => cases h
  | cons a as ih =>
    simp only [askField] at h
    split at h
    · rename_i hc
      cases h
      refine ⟨by simp, ?_, by intro x hx; simp [hx]⟩
      rintro - ⟨h1, h2⟩
      simp [h1, h2] at hc
    · split at h
      · rename_i hok
        cases h
        refine ⟨?_, by simp, by intro x hx; simp [hx]⟩
        intro b hb; cases hb
        exact ⟨by simp, hok⟩
      · obtain ⟨h1, h2, h3⟩ := ih h
        exact ⟨fun b hb => ⟨List.mem_cons_of_mem _ (h1 b hb).1, (h1 b hb).2⟩, h2, fun x hx => List.mem_cons_of_mem _ (h3 x hx)⟩

theorem askFields_spec (found : List Str) (fs : List FieldDecl) (as : List Str) (m : List (Str × Str)) (as' : List Str)
    (h : askFields found fs as = some (m, as')) :
    (∀ kv ∈ m, (∃ f ∈ fs, f.name = kv.1) ∧ kv.1 ∉ ownNames ∧ kv.2 ∈ as ∧ answerOk found kv.2 = true) ∧
    ∀ f ∈ fs, f.required → f.name ∈ ownNames ∨ f.name ∈ m.map (·.1) := by
  induction fs generalizing as m as' with
  | nil =>
    simp only [askFields, Option.some.injEq, Prod.mk.injEq] at h
    obtain ⟨rfl, rfl⟩ := h
    exact ⟨by simp, by simp⟩
  | cons f fs ih =>
    simp only [askFields] at h
    split at h
    · rename_i hs
      obtain ⟨h1, h2⟩ := ih as m as' h
      refine ⟨?_, ?_⟩
      · intro kv hkv
        obtain ⟨⟨g, hg, hn⟩, h3⟩ := h1 kv hkv
        exact ⟨⟨g, List.mem_cons_of_mem _ hg, hn⟩, h3⟩
      · intro g hg hr
        rcases List.mem_cons.1 hg with rfl | hg
        · exact Or.inl hs
        · exact h2 g hg hr
    · rename_i hs
      cases ha : askField found f as with
      | none => rw [ha] at h; cases h
      | some ra =>
        obtain ⟨r, as1⟩ := ra
        rw [ha] at h
        simp only at h
        cases hb : askFields found fs as1 with
        | none => rw [hb] at h; cases h
        | some mb =>
          obtain ⟨m1, as2⟩ := mb
          rw [hb] at h
          simp only [Option.some.injEq, Prod.mk.injEq] at h
          obtain ⟨hm, -⟩ := h
          obtain ⟨s1, s2, s3⟩ := askField_spec found f as r as1 ha
          obtain ⟨h1, h2⟩ := ih as1 m1 as2 hb
          have hin : ∀ kv ∈ m1, kv ∈ m := by
            intro kv hkv
            rw [← hm]
            cases r with
            | none => exact hkv
            | some a => exact List.mem_cons_of_mem _ hkv
          refine ⟨?_, ?_⟩
          · intro kv hkv
            have hold : kv ∈ m1 → (∃ f' ∈ f :: fs, f'.name = kv.1) ∧ kv.1 ∉ ownNames ∧ kv.2 ∈ as ∧ answerOk found kv.2 = true := by
              intro hkv
              obtain ⟨⟨g, hg, hn⟩, h3, h4, h5⟩ := h1 kv hkv
              exact ⟨⟨g, List.mem_cons_of_mem _ hg, hn⟩, h3, s3 _ h4, h5⟩
            rw [← hm] at hkv
            cases r with
            | none => exact hold hkv
            | some a =>
              rcases List.mem_cons.1 hkv with rfl | hkv
              · exact ⟨⟨f, by simp, rfl⟩, hs, (s1 a rfl).1, (s1 a rfl).2⟩
              · exact hold hkv
          · intro g hg hr
            rcases List.mem_cons.1 hg with rfl | hg
            · cases r with
              | none => exact absurd hr (s2 rfl)
              | some a => right; rw [← hm]; simp
            · rcases h2 g hg hr with h | h
              · exact Or.inl h
              · right
                obtain ⟨kv, hkv, he⟩ := List.mem_map.1 h
                exact List.mem_map.2 ⟨kv, hin kv hkv, he⟩

/-- **C102 for the sample classes**: for every class, all parts found and all answers, once the dialog ends, dataset.yaml is accepted when loaded, and the
constructor of the sample class never fails for a missing or an unknown argument.
Missing: crude samples (`C102_violated_crude`). -/
theorem C102_accepted_partial {classes : Str → Option (List FieldDecl)} {found : List Str} {name : Str} {fields : List FieldDecl} {want : Bool}
    {answers : List Str} {d : Definition} (hc : classes name = some fields) (hown : ∀ k ∈ ownNames, ∃ f ∈ fields, f.name = k)
    (h : define found (.cls name fields) want answers = some d) :
    createDs classes d = true ∧ d.sampleType = name ∧ ∀ m, d.fieldMap = some m →
      ∀ (int : Str → Option Int) (sample : List (Str × Val O)) (a b : Val O), loadSample int fields sample m a b ≠ .error .type := by
  unfold define at h
  dsimp only at h
  split at h
  · cases ha : askFields found fields answers with
    | none => rw [ha] at h; cases h
    | some ma =>
      obtain ⟨m, as⟩ := ma
      rw [ha] at h
      simp only [Option.some.injEq] at h
      subst h
      obtain ⟨h1, h2⟩ := askFields_spec found fields answers m as ha
      have hacc : acceptMap fields m = true := (acceptMap_iff fields m).2 fun kv hkv => (h1 kv hkv).1
      refine ⟨?_, rfl, ?_⟩
      · simp [createDs, hc, hacc]
      · intro m' hm'
        simp only [Option.some.injEq] at hm'
        subst hm'
        exact (C71_accept_partial fields m).2 hacc hown h2
  · simp only [Option.some.injEq] at h
    subst h
    refine ⟨by simp [createDs, hc], rfl, ?_⟩
    intro m hm
    cases hm

/-- An answer all of whose alternatives have the documented form `part[key][key]...`. -/
def WellFormed (answer : Str) : Prop :=
  ∃ alts : List (Str × List Str), alts ≠ [] ∧ (∀ a ∈ alts, Plain a.1 ∧ ∀ k ∈ a.2, Plain k) ∧
    answer = [','].intercalate (alts.map altText)

theorem takeWhile_altText (a : Str × List Str) (h : Plain a.1) : (altText a).takeWhile (· ≠ '[') = a.1 := by
  obtain ⟨n, ks⟩ := a
  unfold altText
  dsimp only at h ⊢
  rw [List.takeWhile_append_of_pos]
  · cases ks with
    | nil => simp
    | cons k ks => simp
  · intro c hc
    simpa using (h.2 c hc).2.1

/-- The parts asked for by a well formed answer are the names before the brackets. -/
theorem wellFormed_parts {found : List Str} {answer : Str} (hw : WellFormed answer) (hok : answerOk found answer = true) :
    ∀ f ∈ splitFieldAccess answer, f.headD [] ∈ found := by
  obtain ⟨alts, hne, h, rfl⟩ := hw
  rw [C70_split alts hne h]
  intro f hf
  obtain ⟨a, ha, rfl⟩ := List.mem_map.1 hf
  unfold answerOk at hok
  rw [List.splitOn_intercalate] at hok
  · have := List.all_eq_true.1 hok (altText a) (List.mem_map_of_mem ha)
    rw [takeWhile_altText a (h a ha).1] at this
    simpa using this
  · intro l hl
    obtain ⟨a, ha, rfl⟩ := List.mem_map.1 hl
    intro hc
    rcases List.mem_append.1 hc with hc | hc
    · exact ((h a ha).1.2 _ hc).1 rfl
    · obtain ⟨k, hk, hc⟩ := List.mem_flatMap.1 hc
      simp only [List.mem_cons, List.mem_append, List.not_mem_nil, or_false] at hc
      rcases hc with hc | hc | hc
      · simp at hc
      · exact (((h a ha).2 k hk).2 _ hc).1 rfl
      · simp at hc
  · simpa using hne

/-- **C102, the parts**: if the answers have the documented form, every part asked for from the tar files is one that was found.
Missing: other answers are accepted, too (`C102_violated_brackets`). -/
theorem C102_parts_partial {found : List Str} {chosen : Chosen} {want : Bool} {answers : List Str} {d : Definition} {m : List (Str × Str)}
    (hw : ∀ a ∈ answers, answerOk found a = true → WellFormed a)
    (h : define found chosen want answers = some d) (hm : d.fieldMap = some m) : ∀ p ∈ neededParts m, p ∈ found := by
  unfold define at h
  cases chosen with
  | crude =>
    simp only [Option.some.injEq] at h
    subst h
    cases hm
  | cls name fields =>
    dsimp only at h
    split at h
    · cases ha : askFields found fields answers with
      | none => rw [ha] at h; cases h
      | some ma =>
        obtain ⟨m', as⟩ := ma
        rw [ha] at h
        simp only [Option.some.injEq] at h
        subst h
        simp only [Option.some.injEq] at hm
        subst hm
        obtain ⟨h1, -⟩ := askFields_spec found fields answers m' as ha
        intro p hp
        unfold neededParts at hp
        obtain ⟨kv, hkv, hp⟩ := List.mem_flatMap.1 hp
        obtain ⟨f, hf, rfl⟩ := List.mem_map.1 hp
        obtain ⟨-, -, h2, h3⟩ := h1 kv hkv
        exact wellFormed_parts (hw _ h2 h3) h3 f hf
    · simp only [Option.some.injEq] at h
      subst h
      cases hm

/-- Every value that is asked for without brackets is there. -/
theorem access_plain (int : Str → Option Int) (sample : List (Str × Val O)) (fs : List Str) (hne : fs ≠ [])
    (h : ∀ f ∈ fs, ∃ v, dictGet sample f = some v) : ∃ v, fieldAccess int (.dict sample) (fs.map fun n => [n]) = .ok v := by
  cases fs with
  | nil => exact absurd rfl hne
  | cons f fs =>
    obtain ⟨v, hv⟩ := h f (by simp)
    have ha : accessOne int (.dict sample) [f] = .ok v := by simp [accessOne, hv]
    cases fs with
    | nil => exact ⟨v, by simp only [List.map_cons, List.map_nil, fieldAccess]; exact ha⟩
    | cons g fs => exact ⟨v, by simp only [List.map_cons, fieldAccess, ha]⟩

/-- **C102, loading samples**: if the answers are lists of part names (without brackets), every sample having all the parts that were found is loaded. -/
theorem C102_sample_partial {classes : Str → Option (List FieldDecl)} {found : List Str} {name : Str} {fields : List FieldDecl} {want : Bool}
    {answers : List Str} {d : Definition} {m : List (Str × Str)} (hc : classes name = some fields) (hown : ∀ k ∈ ownNames, ∃ f ∈ fields, f.name = k)
    (hw : ∀ a ∈ answers, answerOk found a = true → ∃ ns : List Str, ns ≠ [] ∧ (∀ n ∈ ns, Plain n) ∧ a = [','].intercalate ns)
    (h : define found (.cls name fields) want answers = some d) (hm : d.fieldMap = some m)
    (int : Str → Option Int) (sample : List (Str × Val O)) (a b : Val O)
    (hk : ∃ v, dictGet sample keyName = some v) (hrk : ∃ v, dictGet sample restoreKeyName = some v)
    (hs : ∀ p ∈ found, ∃ v, dictGet sample p = some v) : ∃ args, loadSample int fields sample m a b = .ok args := by
  have hty := (C102_accepted_partial (O := O) hc hown h).2.2 m hm int sample a b
  have hwf : ∀ a ∈ answers, answerOk found a = true → WellFormed a := by
    intro a ha hok
    obtain ⟨ns, h1, h2, rfl⟩ := hw a ha hok
    refine ⟨ns.map fun n => (n, []), by simpa using h1, ?_, ?_⟩
    · intro x hx
      obtain ⟨n, hn, rfl⟩ := List.mem_map.1 hx
      exact ⟨h2 n hn, by simp⟩
    · rw [List.map_map]
      congr 1
      have : (altText ∘ fun n : Str => (n, ([] : List Str))) = id := by funext n; simp [altText]
      rw [this, List.map_id]
  have hmf : ∃ fs, mapFields int (.dict sample) m = .ok fs := by
    unfold define at h
    dsimp only at h
    split at h
    · cases ha : askFields found fields answers with
      | none => rw [ha] at h; cases h
      | some ma =>
        obtain ⟨m', as⟩ := ma
        rw [ha] at h
        simp only [Option.some.injEq] at h
        subst h
        simp only [Option.some.injEq] at hm
        subst hm
        obtain ⟨h1, -⟩ := askFields_spec found fields answers m' as ha
        clear hty ha
        induction m' with
        | nil => exact ⟨[], rfl⟩
        | cons kv m' ih =>
          obtain ⟨fs, hfs⟩ := ih (fun kv hkv => h1 kv (List.mem_cons_of_mem _ hkv))
          obtain ⟨-, -, h2, h3⟩ := h1 kv (by simp)
          obtain ⟨ns, hn1, hn2, he⟩ := hw _ h2 h3
          have hsplit : splitFieldAccess kv.2 = ns.map fun n => [n] := by
            have := C70_split (ns.map fun n => (n, [])) (by simpa using hn1) (by
              intro x hx
              obtain ⟨n, hn, rfl⟩ := List.mem_map.1 hx
              exact ⟨hn2 n hn, by simp⟩)
            rw [List.map_map, List.map_map] at this
            have e : (altText ∘ fun n : Str => (n, ([] : List Str))) = id := by funext n; simp [altText]
            rw [e, List.map_id, ← he] at this
            exact this
          have hp := wellFormed_parts (hwf _ h2 h3) h3
          rw [hsplit] at hp
          obtain ⟨v, hv⟩ := access_plain int sample ns hn1 (fun n hn => hs n (by
            have := hp [n] (List.mem_map_of_mem hn)
            simpa using this))
          refine ⟨(kv.1, v) :: fs, ?_⟩
          obtain ⟨k, dd⟩ := kv
          simp only [mapFields]
          dsimp only at hsplit
          rw [hsplit, hv]
          simp only [hfs]
    · simp only [Option.some.injEq] at h
      subst h
      cases hm
  obtain ⟨fs, hfs⟩ := hmf
  obtain ⟨k, hk⟩ := hk
  obtain ⟨rk, hrk⟩ := hrk
  simp only [loadSample, sampleArgs, hk, hfs, hrk] at hty ⊢
  split at hty
  · rename_i hif
    rw [if_pos hif]
    exact ⟨_, rfl⟩
  · exact absurd rfl hty

/-- A sample class for the examples: a caption for an image -/
def exClass : List FieldDecl :=
  [⟨keyName, false, false, by simp⟩, ⟨restoreKeyName, false, false, by simp⟩, ⟨subflavorName, true, false, by simp⟩,
    ⟨subflavorsName, true, false, by simp⟩, ⟨"image".toList, false, false, by simp⟩, ⟨"caption".toList, false, false, by simp⟩,
    ⟨"source".toList, true, false, by simp⟩]

/-- A dialog that meets the hypotheses of the theorems: a wrong answer is asked for again, an optional field is left out. -/
example : define ["jpg".toList, "json".toList, "txt".toList] (.cls "CaptioningSample".toList exClass) true
    (["jpeg", "jpg", "", "txt,json", ""].map String.toList) =
    some { sampleType := "CaptioningSample".toList,
           fieldMap := some [("image".toList, "jpg".toList), ("caption".toList, "txt,json".toList)] } := by decide +kernel

/-- **C102 is false of the code** for crude samples: the written dataset.yaml names a class which is not in `megatron.energon`, and even if there were
such a class the file could not be loaded, since it has neither a field map nor a sample loader. -/
theorem C102_violated_crude (found : List Str) (want : Bool) (answers : List Str) :
    ∃ d, define found .crude want answers = some d ∧ ∀ classes, createDs classes d = false := by
  refine ⟨_, rfl, ?_⟩
  intro classes
  unfold createDs
  cases classes "CrudeSampleDummy".toList <;> rfl

theorem C102_violated : ¬ C102_statement := by
  intro h
  obtain ⟨d, hd, hc⟩ := C102_violated_crude [] true []
  have := (h (fun _ => none) [] .crude true [] d (by intro n f h; cases h) hd).1
  rw [hc] at this
  cases this

/-- **C102 is false of the code** for answers with a missing bracket: `json[text` passes the check since there is a part `json`. The written dataset.yaml
is accepted when loaded, but asks for a part `json[text`, and not one sample of the dataset can be loaded. -/
theorem C102_violated_brackets : ∃ d m,
    define ["jpg".toList, "json".toList] (.cls "CaptioningSample".toList exClass) true (["jpg", "json[text", ""].map String.toList) = some d ∧
    d.fieldMap = some m ∧ createDs (fun _ => some exClass) d = true ∧
    ∀ (int : Str → Option Int) (sample : List (Str × Val Unit)) (a b : Val Unit), dictGet sample "json[text".toList = none →
      ∃ e, loadSample int exClass sample m a b = .error e := by
  refine ⟨{ sampleType := "CaptioningSample".toList, fieldMap := some [("image".toList, "jpg".toList), ("caption".toList, "json[text".toList)] }, _,
    by decide +kernel, rfl, by decide +kernel, ?_⟩
  intro int sample a b hno
  have hs1 : splitFieldAccess "json[text".toList = [["json[text".toList]] := by decide +kernel
  have hm : ∃ e, mapFields int (.dict sample) [("image".toList, "jpg".toList), ("caption".toList, "json[text".toList)] = .error e := by
    simp only [mapFields, hs1]
    cases fieldAccess int (.dict sample) (splitFieldAccess "jpg".toList) with
    | error e => exact ⟨e, rfl⟩
    | ok v =>
      have : ∃ e, fieldAccess int (.dict sample) [["json[text".toList]] = .error e := by
        simp only [fieldAccess, accessOne, hno]
        exact ⟨_, rfl⟩
      obtain ⟨e, he⟩ := this
      exact ⟨e, by rw [he]⟩
  obtain ⟨e, he⟩ := hm
  simp only [loadSample, sampleArgs, he]
  cases dictGet sample keyName with
  | none => exact ⟨_, rfl⟩
  | some k => exact ⟨_, rfl⟩

/-- **C102, the sample loader**: with at most ten kinds of parts the written filter keeps exactly the parts that were found; the definition names both
functions of the written file. With more kinds of parts the filter keeps nothing until it is edited (only a part named `TODO`), which the written file
says. -/
theorem C102_template {found : List Str} {name : Str} {fields : List FieldDecl} {want : Bool} {answers : List Str} {d : Definition}
    (h : define found (.cls name fields) want answers = some d) (hl : d.fieldMap = none) :
    d.sampleLoader = some "sample_loader.py:sample_loader".toList ∧ d.partFilter = some "sample_loader.py:part_filter".toList ∧
    (found.length ≤ 10 → ∀ p, templateFilter found p = true ↔ p ∈ found) ∧
    (10 < found.length → ∀ p, templateFilter found p = true ↔ p = "TODO".toList) := by
  unfold define at h
  dsimp only at h
  split at h
  · cases ha : askFields found fields answers with
    | none => rw [ha] at h; cases h
    | some ma =>
      rw [ha] at h
      simp only [Option.some.injEq] at h
      subst h
      cases hl
  · simp only [Option.some.injEq] at h
    subst h
    refine ⟨rfl, rfl, ?_, ?_⟩
    · intro hle p
      unfold templateFilter
      rw [if_neg (by omega)]
      simp
    · intro hlt p
      unfold templateFilter
      rw [if_pos hlt]
      rw [List.contains_iff_mem, List.mem_singleton]

end Verif.Config
