import Verif.Wds.ReaderModel

/-! What the samples of a tar file are. -/

namespace Verif.Wds

open Verif.Stream

variable {B : Type}

/-- A file that belongs to a sample: base name, extension, data -/
structure Entry (B : Type) where
  base : Name
  ext : Name
  data : B

/-- The files of a tar file that belong to samples, in order. -/
def entries (tar : List (Member B)) : List (Entry B) := tar.filterMap fun m => m.part.map fun p => ⟨p.1, p.2, m.data⟩

/-- Put an entry before a list of groups: into the first group if this has the same base name. -/
def Entry.push (e : Entry B) : List (List (Entry B)) → List (List (Entry B))
  | (f :: g) :: gs => if e.base = f.base then (e :: f :: g) :: gs else [e] :: (f :: g) :: gs
  | gs => [e] :: gs

/-- The samples: maximal runs of consecutive files with the same base name. -/
def groups : List (Entry B) → List (List (Entry B))
  | [] => []
  | e :: l => e.push (groups l)

/-- The parts of a sample as a dict: a later file with the same extension replaces an earlier one. -/
def partsOf (g : List (Entry B)) : List (Name × B) := g.foldl (fun d e => dictSet e.ext e.data d) []

/-- The raw sample number `i` of a shard, made of the files `g`. -/
def sampleOf (shard : String) (i : Nat) (g : List (Entry B)) : Smp (Raw B) :=
  ⟨⟨(g.head?.map (·.base)).getD [], shard, partsOf g⟩, [.str "Webdataset", .str shard, .num i]⟩

/-- The samples `gs` of a shard, numbered from `i`. -/
def samplesOf (shard : String) (i : Nat) (gs : List (List (Entry B))) : List (Smp (Raw B)) :=
  gs.zipIdx i |>.map fun p => sampleOf shard p.2 p.1

/-- What a slice must deliver: the groups number `a`, ..., `a + n - 1` of the tar file. -/
def sliceGroups (tar : List (Member B)) (a n : Nat) : List (List (Entry B)) := ((groups (entries tar)).drop a).take n

/-- Every member occupies at least its header. -/
def Sized (tar : List (Member B)) : Prop := ∀ m ∈ tar, 0 < m.size

end Verif.Wds
