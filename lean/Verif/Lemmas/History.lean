import Verif.Spec.History
import Verif.Lemmas.LidScan
import Mathlib.Data.List.Perm.Subperm
namespace Libmorph
variable {α : Type}

theorem runHist_desc_find (h : List (List Byte × (Option α → α))) :
    (runHist h).kids.Desc ∧ ∀ k, (runHist h).find k = histFind h k := by
  suffices H : ∀ (h : List (List Byte × (Option α → α))) (t : Tree α), t.kids.Desc →
      (h.foldl (fun t p => t.insert p.2 p.1) t).kids.Desc ∧
      ∀ k, (h.foldl (fun t p => t.insert p.2 p.1) t).find k
        = (h.filter fun p => p.1 = k).foldl (fun o p => some (p.2 o)) (t.find k) by
    obtain ⟨h1, h2⟩ := H h Tree.empty trivial
    refine ⟨h1, fun k => ?_⟩
    have := h2 k
    rw [Tree.find_empty] at this
    exact this
  intro h
  induction h with
  | nil => intro t ht; exact ⟨ht, fun k => rfl⟩
  | cons p h ih =>
    intro t ht
    obtain ⟨h1, h2⟩ := ih _ (Tree.desc_insert p.2 p.1 t ht)
    refine ⟨h1, fun k => ?_⟩
    simp only [List.foldl_cons]
    rw [h2 k, Tree.find_insert p.2 p.1 t ht]
    by_cases hk : p.1 = k
    · subst hk; simp
    · simp [hk, Ne.symm hk]

theorem Forest.allCh_modify {Q : Byte → Prop} {c : Byte} {g : Tree α → Tree α} {f : Forest α}
    (hc : Q c) (hf : f.AllCh Q) (hg : ∀ t : Tree α, t.kids.AllCh Q → (g t).kids.AllCh Q) :
    (f.modify c g).AllCh Q := by
  induction f with
  | nil => exact ⟨hc, hg _ trivial, trivial⟩
  | cons ch v sub rest _ ihr =>
    obtain ⟨h1, h2, h3⟩ := hf
    simp only [Forest.modify]
    split
    · exact ⟨h1, h2, ihr h3⟩
    · split
      · exact ⟨h1, hg ⟨v, sub⟩ h2, h3⟩
      · exact ⟨hc, hg _ trivial, h1, h2, h3⟩

theorem Tree.allCh_insert {Q : Byte → Prop} (upd : Option α → α) (key : List Byte) (t : Tree α)
    (hk : ∀ b ∈ key, Q b) (ht : t.kids.AllCh Q) : (t.insert upd key).kids.AllCh Q := by
  induction key generalizing t with
  | nil => exact ht
  | cons c cs ih =>
    exact Forest.allCh_modify (hk c (by simp)) ht (fun t ht => ih t (fun b hb => hk b (by simp [hb])) ht)

theorem Forest.depth_modify {c : Byte} {g : Tree α → Tree α} {f : Forest α} (n : Nat)
    (hf : f.depth ≤ n + 1) (hg : ∀ t : Tree α, t.kids.depth ≤ n → (g t).kids.depth ≤ n) :
    (f.modify c g).depth ≤ n + 1 := by
  induction f with
  | nil =>
    have := hg Tree.empty (by simp [Tree.empty, Forest.depth])
    simp only [Forest.modify, Forest.depth]; omega
  | cons ch v sub rest _ ihr =>
    simp only [Forest.depth] at hf
    simp only [Forest.modify]
    split
    · have := ihr (by omega)
      simp only [Forest.depth]; omega
    · split
      · have := hg ⟨v, sub⟩ (by simp only; omega)
        simp only [Forest.depth]; omega
      · have := hg Tree.empty (by simp [Tree.empty, Forest.depth])
        simp only [Forest.depth]; omega

theorem Tree.depth_insert (upd : Option α → α) (key : List Byte) (t : Tree α) (n : Nat)
    (hk : key.length ≤ n) (ht : t.kids.depth ≤ n) : (t.insert upd key).kids.depth ≤ n := by
  induction key generalizing t n with
  | nil => exact ht
  | cons c cs ih =>
    simp only [List.length_cons] at hk
    obtain ⟨m, rfl⟩ : ∃ m, n = m + 1 := ⟨n - 1, by omega⟩
    exact Forest.depth_modify m ht (fun t ht => ih t m (by omega) ht)

theorem Forest.all_modify {P : α → Prop} {c : Byte} {g : Tree α → Tree α} {f : Forest α}
    (hf : f.All P) (hg : ∀ t : Tree α, t.All P → (g t).All P) : (f.modify c g).All P := by
  have h0 : (Tree.empty : Tree α).All P := ⟨by simp [Tree.empty], trivial⟩
  induction f with
  | nil => exact ⟨(hg _ h0).1, (hg _ h0).2, trivial⟩
  | cons ch v sub rest _ ihr =>
    obtain ⟨h1, h2, h3⟩ := hf
    simp only [Forest.modify]
    split
    · exact ⟨h1, h2, ihr h3⟩
    · split
      · exact ⟨(hg ⟨v, sub⟩ ⟨h1, h2⟩).1, (hg ⟨v, sub⟩ ⟨h1, h2⟩).2, h3⟩
      · exact ⟨(hg _ h0).1, (hg _ h0).2, h1, h2, h3⟩

theorem Tree.all_insert {P : α → Prop} (upd : Option α → α) (key : List Byte) (t : Tree α)
    (hu : ∀ o, (∀ x, o = some x → P x) → P (upd o)) (ht : t.All P) : (t.insert upd key).All P := by
  induction key generalizing t with
  | nil =>
    refine ⟨?_, ht.2⟩
    intro x hx
    simp only [Tree.insert, Option.some.injEq] at hx
    subst hx
    exact hu _ ht.1
  | cons c cs ih => exact ⟨ht.1, Forest.all_modify ht.2 (fun t ht => ih t ht)⟩

/-- Invariants of every history. -/
theorem runHist_inv (h : List (List Byte × (Option α → α))) (Q : Byte → Prop) (n : Nat) (P : α → Prop)
    (hQ : ∀ p ∈ h, ∀ b ∈ p.1, Q b) (hn : ∀ p ∈ h, p.1.length ≤ n)
    (hP : ∀ p ∈ h, ∀ o, (∀ x, o = some x → P x) → P (p.2 o)) :
    (runHist h).kids.AllCh Q ∧ (runHist h).kids.depth ≤ n ∧ (runHist h).All P := by
  suffices H : ∀ (h : List (List Byte × (Option α → α))) (t : Tree α),
      (∀ p ∈ h, ∀ b ∈ p.1, Q b) → (∀ p ∈ h, p.1.length ≤ n) →
      (∀ p ∈ h, ∀ o, (∀ x, o = some x → P x) → P (p.2 o)) →
      t.kids.AllCh Q → t.kids.depth ≤ n → t.All P →
      (h.foldl (fun t p => t.insert p.2 p.1) t).kids.AllCh Q ∧
      (h.foldl (fun t p => t.insert p.2 p.1) t).kids.depth ≤ n ∧
      (h.foldl (fun t p => t.insert p.2 p.1) t).All P by
    exact H h Tree.empty hQ hn hP trivial (by simp [Tree.empty, Forest.depth]) ⟨by simp [Tree.empty], trivial⟩
  intro h
  induction h with
  | nil => intro t _ _ _ h1 h2 h3; exact ⟨h1, h2, h3⟩
  | cons p h ih =>
    intro t hQ hn hP h1 h2 h3
    exact ih _ (fun q hq => hQ q (by simp [hq])) (fun q hq => hn q (by simp [hq]))
      (fun q hq => hP q (by simp [hq]))
      (Tree.allCh_insert _ _ _ (hQ p (by simp)) h1) (Tree.depth_insert _ _ _ _ (hn p (by simp)) h2)
      (Tree.all_insert _ _ _ (hP p (by simp)) h3)

/-! ### From the history to a compilable tree -/

theorem Forest.count_eq (f : Forest α) : f.count = f.chars.length := by
  induction f with
  | nil => rfl
  | cons ch v sub rest _ ihr => simp [Forest.count, Forest.chars, ihr]

theorem Forest.chars_nodup {f : Forest α} (h : f.Desc) : f.chars.Nodup := by
  induction f with
  | nil => simp [Forest.chars]
  | cons ch v sub rest _ ihr =>
    simp only [Forest.chars, List.nodup_cons]
    refine ⟨fun hm => ?_, ihr h.2.2⟩
    have := h.1 ch hm; omega

theorem Forest.allCh_mem {Q : Byte → Prop} {f : Forest α} (h : f.AllCh Q) : ∀ x ∈ f.chars, Q x := by
  induction f with
  | nil => simp [Forest.chars]
  | cons ch v sub rest _ ihr =>
    intro x hx
    simp only [Forest.chars, List.mem_cons] at hx
    rcases hx with rfl | hx
    · exact h.1
    · exact ihr h.2.2 x hx

theorem Forest.count_le {A : List Byte} {f : Forest α} (hd : f.Desc) (h : f.AllCh (· ∈ A)) :
    f.count ≤ A.length := by
  rw [Forest.count_eq]
  exact ((Forest.chars_nodup hd).subperm (fun x hx => Forest.allCh_mem h x hx)).length_le

theorem Forest.good_of {c : Counter} {vl : α → Nat} {A : List Byte} {f : Forest α} (hd : f.Desc)
    (hA : f.AllCh (· ∈ A)) (hAc : A.length < c.top) (hb : ∀ x ∈ A, x < 256)
    (hl : f.kidsLen c vl < 2 ^ 32) : f.Good c vl := by
  induction f with
  | nil => trivial
  | cons ch v sub rest ihs ihr =>
    simp only [Forest.kidsLen] at hl
    refine ⟨hb _ hA.1, hd.1, ?_, ?_, ihs hd.2.1 hA.2.1 (by omega), ihr hd.2.2 hA.2.2 (by omega)⟩
    · have := Forest.count_le hd.2.1 hA.2.1; omega
    · simp only [Tree.bufLen]; omega

/-- A tree over an alphabet of fewer characters than the counter's value flag, with an image below
4 GB, is compilable. -/
theorem Tree.good_of {c : Counter} {vl : α → Nat} {A : List Byte} {t : Tree α} (hd : t.kids.Desc)
    (hA : t.kids.AllCh (· ∈ A)) (hAc : A.length < c.top) (hb : ∀ x ∈ A, x < 256)
    (hl : t.bufLen c vl < 2 ^ 32) : t.Good c vl := by
  refine ⟨?_, Forest.good_of hd hA hAc hb ?_⟩
  · have := Forest.count_le hd hA; omega
  · simp only [Tree.bufLen] at hl; omega

end Libmorph
