import Verif.Spec.Sample
/-! C04 — the compiled image has exactly the announced size. -/
namespace Libmorph

/-- For every tree whose elements are written in their announced number of bytes, the whole tree is
written in its announced number of bytes. -/
theorem C04_size {α : Type} (c : Counter) (sv : α → List Byte) (vl : α → Nat) (t : Tree α)
    (hv : ∀ k x, t.find k = some x → (sv x).length = vl x) (hd : t.kids.Desc) :
    (t.ser c sv vl).length = t.bufLen c vl :=
  Tree.ser_length c sv vl t (fun x => (sv x).length = vl x) (fun _ h => h) (Tree.all_of_find hd hv)

/-- The same for every subtree: the length stored in front of a child node is the number of bytes
written for it (`rest` are the following siblings; every child of every node has this shape). -/
theorem C04_subtree_size {α : Type} (c : Counter) (sv : α → List Byte) (vl : α → Nat)
    (ch : Byte) (v : Option α) (sub rest : Forest α) (hd : sub.Desc)
    (hv : ∀ k x, (Tree.mk v sub).find k = some x → (sv x).length = vl x) :
    (Forest.cons ch v sub rest).kidsSer c sv vl
      = [ch % 256] ++ putserial ((Tree.mk v sub).ser c sv vl).length ++ (Tree.mk v sub).ser c sv vl
          ++ rest.kidsSer c sv vl := by
  rw [C04_size c sv vl ⟨v, sub⟩ hv hd]
  rfl

/-- The stem image and the id image of every compilable dictionary have the sizes the compiler
computes beforehand. -/
theorem C04_dictionary {A : List Byte} {l : List (List Byte × Entry)} (h : DictOk A l) :
    (stemImage (fileAll l)).length = (fileAll l).bufLen .u8 entriesLen ∧
    (lidImage (lidTree (fileAll l))).length = (lidTree (fileAll l)).bufLen .u16 serialLen :=
  ⟨Tree.ser_length .u8 entriesSer entriesLen _ EntriesOk entriesSer_length h.all,
   Tree.ser_length .u16 putserial serialLen _ (· < 2 ^ 32) (fun x _ => putserial_len x) (lidTree_all h)⟩

/-- Non-vacuity. -/
example : (stemImage (fileAll sample)).length = (fileAll sample).bufLen .u8 entriesLen :=
  (C04_dictionary sample_dictOk).1

example : (stemImage (fileAll sample)).length = 48 := by decide +kernel

end Libmorph
