import Verif.Spec.Trie
import Verif.Lemmas.Bytes
namespace Libmorph
variable {α : Type}

/-! ### Insertion -/

theorem Forest.child_none_of_not_mem {c : Byte} {f : Forest α} (h : c ∉ f.chars) :
    f.child c = none := by
  induction f with
  | nil => rfl
  | cons ch v sub rest _ ihr =>
    simp only [Forest.chars, List.mem_cons, not_or] at h
    simp only [Forest.child]
    rw [if_neg (fun e => h.1 e.symm)]
    exact ihr h.2

theorem Forest.chars_modify {c : Byte} {g : Tree α → Tree α} {f : Forest α} {x : Byte} :
    x ∈ (f.modify c g).chars ↔ x = c ∨ x ∈ f.chars := by
  induction f with
  | nil => simp [Forest.modify, Forest.chars]
  | cons ch v sub rest _ ihr =>
    simp only [Forest.modify]
    split
    · simp only [Forest.chars, List.mem_cons, ihr]; constructor <;> rintro (h | h | h) <;> simp_all
    · split
      · rename_i h1 h2; subst h2; simp [Forest.chars]
      · simp [Forest.chars]

theorem Forest.child_modify {c : Byte} {g : Tree α → Tree α} {f : Forest α} (hd : f.Desc) (x : Byte) :
    (f.modify c g).child x =
      if x = c then some (g ((f.child c).getD Tree.empty)) else f.child x := by
  induction f with
  | nil =>
    simp only [Forest.modify, Forest.child]
    by_cases h : x = c
    · subst h; simp
    · rw [if_neg (fun e => h e.symm), if_neg h]
  | cons ch v sub rest _ ihr =>
    obtain ⟨h1, h2, h3⟩ := hd
    simp only [Forest.modify]
    split
    · rename_i hgt
      simp only [Forest.child]
      by_cases hx : ch = x
      · subst hx
        rw [if_pos rfl, if_neg (by omega), if_pos rfl]
      · rw [if_neg hx, ihr h3, if_neg hx, if_neg (show ¬ ch = c by omega)]
    · split
      · rename_i hgt heq
        subst heq
        simp only [Forest.child]
        by_cases hx : ch = x
        · subst hx; simp
        · rw [if_neg hx, if_neg (fun e => hx e.symm), if_neg hx]
      · rename_i hgt hne
        have hlt : ch < c := by omega
        have hc : (Forest.cons ch v sub rest).child c = none := by
          apply Forest.child_none_of_not_mem
          simp only [Forest.chars, List.mem_cons, not_or]
          refine ⟨by omega, fun hm => ?_⟩
          have := h1 c hm; omega
        by_cases hx : x = c
        · subst hx
          simp [hc]; simp [Forest.child]
        · rw [if_neg hx]
          conv => lhs; simp only [Forest.child]
          rw [if_neg (fun e => hx e.symm)]
          rfl

theorem Forest.child_desc {c : Byte} {f : Forest α} (hd : f.Desc) {t : Tree α}
    (h : f.child c = some t) : t.kids.Desc := by
  induction f with
  | nil => simp [Forest.child] at h
  | cons ch v sub rest _ ihr =>
    obtain ⟨_, h2, h3⟩ := hd
    simp only [Forest.child] at h
    split at h
    · simp at h; subst h; exact h2
    · exact ihr h3 h

theorem Forest.desc_modify {c : Byte} {g : Tree α → Tree α} {f : Forest α} (hd : f.Desc)
    (hg : ∀ t : Tree α, t.kids.Desc → (g t).kids.Desc) : (f.modify c g).Desc := by
  induction f with
  | nil => exact ⟨by simp [Forest.chars], hg _ trivial, trivial⟩
  | cons ch v sub rest _ ihr =>
    obtain ⟨h1, h2, h3⟩ := hd
    simp only [Forest.modify]
    split
    · rename_i hgt
      refine ⟨?_, h2, ihr h3⟩
      intro x hx
      rcases Forest.chars_modify.1 hx with rfl | hx
      · omega
      · exact h1 x hx
    · split
      · exact ⟨h1, hg ⟨v, sub⟩ h2, h3⟩
      · rename_i hgt hne
        refine ⟨?_, hg _ trivial, h1, h2, h3⟩
        intro x hx
        rcases List.mem_cons.1 hx with rfl | hx
        · omega
        · have := h1 x hx; omega

theorem Tree.desc_insert (upd : Option α → α) (key : List Byte) (t : Tree α) (hd : t.kids.Desc) :
    (t.insert upd key).kids.Desc := by
  induction key generalizing t with
  | nil => exact hd
  | cons c cs ih => exact Forest.desc_modify hd (fun t ht => ih t ht)

theorem Tree.find_empty (key : List Byte) : (Tree.empty : Tree α).find key = none := by
  cases key <;> rfl

/-- Insertion changes the value of the inserted string and of no other. -/
theorem Tree.find_insert (upd : Option α → α) (key : List Byte) (t : Tree α) (hd : t.kids.Desc)
    (k : List Byte) :
    (t.insert upd key).find k = if k = key then some (upd (t.find key)) else t.find k := by
  induction key generalizing t k with
  | nil =>
    cases k with
    | nil => simp [Tree.insert, Tree.find]
    | cons c cs => simp [Tree.insert, Tree.find]
  | cons c cs ih =>
    cases k with
    | nil => simp [Tree.insert, Tree.find]
    | cons x xs =>
      simp only [Tree.insert, Tree.find]
      rw [Forest.child_modify hd]
      by_cases hx : x = c
      · subst hx
        simp only [if_true]
        cases hc : t.kids.child x with
        | none =>
          simp only [Option.getD_none]
          rw [ih Tree.empty trivial xs]
          by_cases h : xs = cs
          · subst h; simp [Tree.find_empty]
          · rw [if_neg h, if_neg (by simp [h]), Tree.find_empty]
        | some t' =>
          simp only [Option.getD_some]
          rw [ih t' (Forest.child_desc hd hc) xs]
          by_cases h : xs = cs
          · subst h; simp
          · rw [if_neg h, if_neg (by simp [h])]
      · rw [if_neg hx, if_neg (by simp [hx])]

/-! ### Sizes -/

theorem putcount_length (c : Counter) (n : Nat) (b : Bool) : (putcount c n b).length = c.bytes := by
  cases c <;> rfl

theorem Forest.kidsSer_length (c : Counter) (sv : α → List Byte) (vl : α → Nat) (f : Forest α)
    (P : α → Prop) (hv : ∀ x, P x → (sv x).length = vl x) (hP : f.All P) :
    (f.kidsSer c sv vl).length = f.kidsLen c vl := by
  induction f with
  | nil => rfl
  | cons ch v sub rest ihs ihr =>
    obtain ⟨h1, h2, h3⟩ := hP
    simp only [Forest.kidsSer, Forest.kidsLen, List.length_append, putserial_len, putcount_length,
      ihs h2, ihr h3, Tree.bufLen, List.length_singleton]
    cases v with
    | none => simp [optSer]; omega
    | some x => simp [optSer, hv x (h1 x rfl)]; omega

theorem Tree.ser_length (c : Counter) (sv : α → List Byte) (vl : α → Nat) (t : Tree α)
    (P : α → Prop) (hv : ∀ x, P x → (sv x).length = vl x) (hP : t.All P) :
    (t.ser c sv vl).length = t.bufLen c vl := by
  obtain ⟨v, kids⟩ := t
  simp only [Tree.ser, Tree.bufLen, List.length_append, putcount_length,
    Forest.kidsSer_length c sv vl kids P hv hP.2]
  cases v with
  | none => simp [optSer]
  | some x => simp [optSer, hv x (hP.1 x rfl)]

end Libmorph
