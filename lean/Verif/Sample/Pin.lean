/-!
# C114: pinning a batch

`/repo src/megatron/energon/flavors/base_dataset.py:34-62` (`PinMemoryMixin`). Both loaders are made with `pin_memory=True` (savable_loader.py:751, 1085), so
with CUDA every `Sample` or `Batch` a loader delivers went through `pin_memory` in the main process.

Simplifications: contents of tensors, keys and other objects are numbers or names. The values are finite trees (objects that are used twice are two objects).
-/

namespace Verif.Sample.Pin

abbrev Name := String

/-- Python values -/
inductive Val where
  /-- a tensor with this content; `pinned`: in page-locked memory -/
  | tensor (content : Nat) (pinned : Bool)
  /-- an instance of `dict` or of a class derived from it -/
  | dict (cls : Name) (keys : List Name) (vals : List Val)
  /-- an instance of a dataclass with the attributes set -/
  | data (cls : Name) (names : List Name) (vals : List Val)
  /-- a list or tuple, or an instance of a class derived from these, without `_fields` -/
  | seq (cls : Name) (vals : List Val)
  /-- a list or tuple with `_fields` -/
  | named (cls : Name) (vals : List Val)
  /-- a dataclass itself (not an instance) -/
  | type (cls : Name)
  /-- any other object that holds values: sets, instances of other classes, ... -/
  | box (cls : Name) (vals : List Val)
  | other (x : Nat)

/-- What is known of the classes -/
structure Env where
  /-- the fields of a dataclass; the second component: the field is a parameter of the constructor -/
  fields : Name → List (Name × Bool)
  /-- what is left of the attributes after `__post_init__`; `none`: it raises -/
  post : Name → List Name → List Val → Option (List Name × List Val)
  /-- calling a list or tuple class with an iterable -/
  seq : Name → List Val → Option Val
  /-- calling a named tuple class with the values -/
  named : Name → List Val → Option Val

/-- `type(batch)(**{...})`: the generated constructor knows the fields with `init`, then `__post_init__` runs -/
def Env.make (E : Env) (c : Name) (names : List Name) (vals : List Val) : Option Val :=
  if names.all fun n => (n, true) ∈ E.fields c then (E.post c names vals).map fun p => .data c p.1 p.2 else none

/-- `getattr` for each field; `none`: `AttributeError` -/
def attrs (names : List Name) (vals : List Val) : List Name → Option (List Val)
  | [] => some []
  | f :: fs =>
    match (names.zip vals).lookup f, attrs names vals fs with
    | some v, some vs => some (v :: vs)
    | _, _ => none

mutual
/-- Lines 37-59 `_pin_memory`. `none`: an exception. In line 46 the fields are looked up and pinned one after the other; here the values of all attributes are
pinned first and looked up then (the same, except that attributes that are no fields are pinned for nothing). -/
def pin (E : Env) : Val → Option Val
  | .tensor x _ => some (.tensor x true)
  | .dict _ keys vals => (pinList E vals).map fun vs => .dict "dict" keys vs
  | .data c names vals =>
    match pinList E vals with
    | none => none
    | some vs =>
      match attrs names vs ((E.fields c).map (·.1)) with
      | none => none
      | some as => E.make c ((E.fields c).map (·.1)) as
  | .named c vals =>
    match pinList E vals with
    | none => none
    | some vs => E.named c vs
  | .seq c vals =>
    match pinList E vals with
    | none => none
    | some vs => E.seq c vs
  -- `dataclasses.is_dataclass` is true of the class, whose type is `type`, which takes no such arguments
  | .type _ => none
  | .box c vals => some (.box c vals)
  | .other x => some (.other x)
def pinList (E : Env) : List Val → Option (List Val)
  | [] => some []
  | v :: vs =>
    match pin E v, pinList E vs with
    | some w, some ws => some (w :: ws)
    | _, _ => none
end

/-! ## Specification -/

mutual
/-- The same value, up to where the tensors are -/
inductive Same : Val → Val → Prop
  | tensor {x p q} : Same (.tensor x p) (.tensor x q)
  | dict {c keys vs ws} : Sames vs ws → Same (.dict c keys vs) (.dict c keys ws)
  | data {c names vs ws} : Sames vs ws → Same (.data c names vs) (.data c names ws)
  | seq {c vs ws} : Sames vs ws → Same (.seq c vs) (.seq c ws)
  | named {c vs ws} : Sames vs ws → Same (.named c vs) (.named c ws)
  | type {c} : Same (.type c) (.type c)
  | box {c vs ws} : Sames vs ws → Same (.box c vs) (.box c ws)
  | other {x} : Same (.other x) (.other x)
inductive Sames : List Val → List Val → Prop
  | nil : Sames [] []
  | cons {v w vs ws} : Same v w → Sames vs ws → Sames (v :: vs) (w :: ws)
end

/-- A tensor that is not pinned is somewhere inside -/
inductive Unpinned : Val → Prop
  | tensor {x} : Unpinned (.tensor x false)
  | dict {c keys vs v} : v ∈ vs → Unpinned v → Unpinned (.dict c keys vs)
  | data {c names vs v} : v ∈ vs → Unpinned v → Unpinned (.data c names vs)
  | seq {c vs v} : v ∈ vs → Unpinned v → Unpinned (.seq c vs)
  | named {c vs v} : v ∈ vs → Unpinned v → Unpinned (.named c vs)
  | box {c vs v} : v ∈ vs → Unpinned v → Unpinned (.box c vs)

mutual
/-- The structures that are supported: tensors, dicts (not derived classes), dataclasses all of whose attributes are fields with `init` and without
`__post_init__`, named tuples, lists and tuples whose classes can be called with the values, and other objects without unpinned tensors -/
inductive Regular (E : Env) : Val → Prop
  | tensor {x p} : Regular E (.tensor x p)
  | dict {keys vs} : Regulars E vs → Regular E (.dict "dict" keys vs)
  | data {c names vs} : E.fields c = names.map (fun n => (n, true)) → names.Nodup → names.length = vs.length →
      (∀ ws, E.post c names ws = some (names, ws)) → Regulars E vs → Regular E (.data c names vs)
  | seq {c vs} : (∀ ws, E.seq c ws = some (.seq c ws)) → Regulars E vs → Regular E (.seq c vs)
  | named {c vs} : (∀ ws, ws.length = vs.length → E.named c ws = some (.named c ws)) → Regulars E vs → Regular E (.named c vs)
  | box {c vs} : ¬ Unpinned (.box c vs) → Regular E (.box c vs)
  | other {x} : Regular E (.other x)
inductive Regulars (E : Env) : List Val → Prop
  | nil : Regulars E []
  | cons {v vs} : Regular E v → Regulars E vs → Regulars E (v :: vs)
end

/-! ## Proofs -/

variable {E : Env}

mutual
theorem Same.refl : (v : Val) → Same v v
  | .tensor _ _ => .tensor
  | .dict _ _ vs => .dict (Sames.refl vs)
  | .data _ _ vs => .data (Sames.refl vs)
  | .seq _ vs => .seq (Sames.refl vs)
  | .named _ vs => .named (Sames.refl vs)
  | .type _ => .type
  | .box _ vs => .box (Sames.refl vs)
  | .other _ => .other
theorem Sames.refl : (vs : List Val) → Sames vs vs
  | [] => .nil
  | v :: vs => .cons (Same.refl v) (Sames.refl vs)
end

theorem Sames.length : ∀ {vs ws : List Val}, Sames vs ws → vs.length = ws.length
  | [], _, .nil => rfl
  | _ :: _, _, .cons _ h => by rw [List.length_cons, List.length_cons, h.length]

theorem attrs_zip : ∀ (names : List Name) (vals : List Val), names.Nodup → names.length = vals.length → attrs names vals names = some vals := by
  have key : ∀ (fs : List Name) (vs : List Val) (pre : List Name) (pvs : List Val), pre.length = pvs.length → (pre ++ fs).Nodup → fs.length = vs.length →
      attrs (pre ++ fs) (pvs ++ vs) fs = some vs := by
    intro fs
    induction fs with
    | nil =>
      intro vs pre pvs _ _ hl
      cases vs with
      | nil => rfl
      | cons => cases hl
    | cons f fs ih =>
      intro vs pre pvs hp hn hl
      cases vs with
      | nil => cases hl
      | cons v vs =>
        have e : (pre ++ f :: fs).zip (pvs ++ v :: vs) = pre.zip pvs ++ (f, v) :: fs.zip vs := by
          rw [List.zip_append hp]
          rfl
        have hf : f ∉ pre := by
          intro hm
          rw [List.nodup_append] at hn
          exact hn.2.2 f hm f (List.mem_cons_self ..) rfl
        have hlook : ((pre ++ f :: fs).zip (pvs ++ v :: vs)).lookup f = some v := by
          rw [e]
          clear ih hn hl e
          induction pre generalizing pvs with
          | nil => simp
          | cons g pre ih =>
            cases pvs with
            | nil => cases hp
            | cons w pvs =>
              rw [List.mem_cons, not_or] at hf
              rw [List.zip_cons_cons, List.cons_append, List.lookup_cons, show (f == g) = false from beq_false_of_ne hf.1]
              exact ih pvs (by simpa using hp) hf.2
        have hrest := ih vs (pre ++ [f]) (pvs ++ [v]) (by simp [hp]) (by simpa using hn) (by simpa using hl)
        rw [List.append_assoc, List.append_assoc] at hrest
        unfold attrs
        rw [hlook]
        rw [show (pre ++ ([f] ++ fs)) = pre ++ f :: fs from rfl, show (pvs ++ ([v] ++ vs)) = pvs ++ v :: vs from rfl] at hrest
        rw [hrest]
  intro names vals hn hl
  exact key names vals [] [] rfl hn hl

mutual
theorem pin_regular : (v : Val) → Regular E v → ∃ w, pin E v = some w ∧ Same v w ∧ ¬ Unpinned w
  | .tensor x p, _ => ⟨.tensor x true, by rw [pin], .tensor, fun h => by cases h⟩
  | .dict c keys vs, h => by
    cases h with
    | dict h =>
      obtain ⟨ws, h1, h2, h3⟩ := pin_regulars vs h
      refine ⟨.dict "dict" keys ws, by rw [pin, h1]; rfl, .dict h2, ?_⟩
      intro hu
      cases hu with
      | dict hm hu => exact h3 _ hm hu
  | .data c names vs, h => by
    cases h with
    | data hf hn hl hpost h =>
      obtain ⟨ws, h1, h2, h3⟩ := pin_regulars vs h
      refine ⟨.data c names ws, ?_, .data h2, ?_⟩
      · have e : (E.fields c).map (·.1) = names := by rw [hf, List.map_map]; exact List.map_id _
        rw [pin, h1]
        dsimp only
        rw [e, attrs_zip names ws hn (hl.trans h2.length)]
        dsimp only
        unfold Env.make
        rw [if_pos, hpost ws]
        · rfl
        · rw [List.all_eq_true]
          intro n hm
          rw [decide_eq_true_eq, hf]
          exact List.mem_map.2 ⟨n, hm, rfl⟩
      · intro hu
        cases hu with
        | data hm hu => exact h3 _ hm hu
  | .seq c vs, h => by
    cases h with
    | seq hs h =>
      obtain ⟨ws, h1, h2, h3⟩ := pin_regulars vs h
      refine ⟨.seq c ws, by rw [pin, h1]; exact hs ws, .seq h2, ?_⟩
      intro hu
      cases hu with
      | seq hm hu => exact h3 _ hm hu
  | .named c vs, h => by
    cases h with
    | named hs h =>
      obtain ⟨ws, h1, h2, h3⟩ := pin_regulars vs h
      refine ⟨.named c ws, by rw [pin, h1]; exact hs ws h2.length.symm, .named h2, ?_⟩
      intro hu
      cases hu with
      | named hm hu => exact h3 _ hm hu
  | .type c, h => by cases h
  | .box c vs, h => by
    cases h with
    | box h => exact ⟨.box c vs, by rw [pin], Same.refl _, h⟩
  | .other x, _ => ⟨.other x, by rw [pin], .other, fun h => by cases h⟩
theorem pin_regulars : (vs : List Val) → Regulars E vs → ∃ ws, pinList E vs = some ws ∧ Sames vs ws ∧ ∀ w ∈ ws, ¬ Unpinned w
  | [], _ => ⟨[], by rw [pinList], .nil, fun w h => by cases h⟩
  | v :: vs, h => by
    cases h with
    | cons h1 h2 =>
      obtain ⟨w, e1, s1, u1⟩ := pin_regular v h1
      obtain ⟨ws, e2, s2, u2⟩ := pin_regulars vs h2
      refine ⟨w :: ws, by rw [pinList, e1, e2], .cons s1 s2, ?_⟩
      intro x hx
      rcases List.mem_cons.1 hx with rfl | hx
      · exact u1
      · exact u2 x hx
end

/-- **C114** in full: for every batch. -/
def C114_statement : Prop := ∀ (E : Env) (v : Val), ∃ w, pin E v = some w ∧ Same v w ∧ ¬ Unpinned w

/-- **C114**: pinning a batch of the supported structures, nested to any depth, gives the same batch: the same classes, keys and contents everywhere, with every
tensor in pinned memory. -/
theorem C114_pinned_partial (v : Val) (h : Regular E v) : ∃ w, pin E v = some w ∧ Same v w ∧ ¬ Unpinned w := pin_regular v h

/-! ## Cases -/

/-- A batch class with fields `image` and `meta`; a class `Cached` whose field `sum` is not a parameter of the constructor; a class `Scaled` whose `__post_init__`
changes the field; lists, tuples and named tuples as usual -/
def exEnv : Env where
  fields c := if c = "Batch" then [("image", true), ("meta", true)] else if c = "Cached" then [("image", true), ("sum", false)] else [("image", true)]
  post c names vals :=
    if c = "Scaled" then
      match vals with
      | [.tensor x p] => some (names, [.tensor (2 * x) p])
      | _ => none
    else some (names, vals)
  seq c vs := some (.seq c vs)
  named c vs := some (.named c vs)

def exBatch : Val :=
  .data "Batch" ["image", "meta"] [.tensor 5 false, .dict "dict" ["boxes", "keys"] [.seq "list" [.tensor 6 false, .named "Size" [.other 1]], .seq "tuple" [.other 7]]]

theorem exBatch_regular : Regular exEnv exBatch := by
  refine .data rfl (by decide) rfl (fun _ => rfl) (.cons .tensor (.cons (.dict ?_) .nil))
  refine .cons (.seq (fun _ => rfl) (.cons .tensor (.cons (.named (fun _ _ => rfl) (.cons .other .nil)) .nil))) (.cons (.seq (fun _ => rfl) (.cons .other .nil)) .nil)

example : ∃ w, pin exEnv exBatch = some w ∧ Same exBatch w ∧ ¬ Unpinned w := C114_pinned_partial _ exBatch_regular
example : pin exEnv exBatch = some (.data "Batch" ["image", "meta"] [.tensor 5 true,
    .dict "dict" ["boxes", "keys"] [.seq "list" [.tensor 6 true, .named "Size" [.other 1]], .seq "tuple" [.other 7]]]) := by
  simp [exBatch, exEnv, pin, pinList, attrs, Env.make, List.lookup]

/-- **C114 is false of the code** for dicts of derived classes (`defaultdict`, `OrderedDict`, `CrudeSample`): they become plain dicts. -/
theorem C114_violated_dict (c : Name) (hc : c ≠ "dict") (keys : List Name) (vs : List Val) (w : Val) (h : pin E (.dict c keys vs) = some w) :
    ¬ Same (.dict c keys vs) w := by
  rw [pin] at h
  cases hl : pinList E vs with
  | none => rw [hl] at h; cases h
  | some ws =>
    rw [hl] at h
    cases h
    intro hs
    cases hs
    exact hc rfl

/-- **C114 is false of the code** for dataclasses with a field that is not a parameter of the constructor: an exception, whatever the values. -/
theorem C114_violated_init (c : Name) (f : Name) (hf : (f, false) ∈ E.fields c) (hn : (f, true) ∉ E.fields c) (names : List Name) (vs : List Val) :
    pin E (.data c names vs) = none := by
  rw [pin]
  cases pinList E vs with
  | none => rfl
  | some ws =>
    dsimp only
    cases attrs names ws ((E.fields c).map (·.1)) with
    | none => rfl
    | some as =>
      dsimp only
      unfold Env.make
      rw [if_neg]
      intro h
      rw [List.all_eq_true] at h
      have := h f (List.mem_map.2 ⟨_, hf, rfl⟩)
      rw [decide_eq_true_eq] at this
      exact hn this

/-- **C114 is false of the code** for classes with a `__post_init__` that changes fields: it runs again. -/
theorem C114_violated_post : pin exEnv (.data "Scaled" ["image"] [.tensor 5 false]) = some (.data "Scaled" ["image"] [.tensor 10 true]) := by
  simp [exEnv, pin, pinList, attrs, Env.make, List.lookup]

/-- **C114 is false of the code** for a batch that mentions a dataclass itself, and for tensors in sets and other objects, which are not pinned. -/
theorem C114_violated_others (c : Name) (x : Nat) : pin E (.type c) = none ∧
    pin E (.box "set" [.tensor x false]) = some (.box "set" [.tensor x false]) ∧ Unpinned (.box "set" [.tensor x false]) :=
  ⟨by rw [pin], by rw [pin], .box (List.mem_singleton.2 rfl) .tensor⟩

theorem C114_violated : ¬ C114_statement := by
  intro h
  obtain ⟨w, hw, -⟩ := h exEnv (.type "Batch")
  rw [(C114_violated_others (E := exEnv) "Batch" 0).1] at hw
  cases hw

end Verif.Sample.Pin
