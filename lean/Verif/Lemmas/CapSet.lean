import Verif.Lemmas.Caps
namespace Libmorph

/-- Tables in which changing a letter to its capital gives a letter of the same small form. -/
structure CharTab.UpOk (T : CharTab) : Prop where
  letter : ∀ b < 256, T.ctype b ≠ ctDlm → T.ctype (T.upper b) ≠ ctDlm
  same : ∀ b < 256, T.ctype b ≤ 1 → T.lower (T.upper b) = T.lower b

theorem engTab_upOk : engTab.UpOk := ⟨by decide +kernel, by decide +kernel⟩
theorem rusTab_upOk : rusTab.UpOk := ⟨by decide +kernel, by decide +kernel⟩

/-- The inner loop of `CapScheme::Set`, on a part. -/
def applyCase (T : CharTab) : Nat → List Byte → List Byte
  | _, [] => []
  | k, c :: p => (if k ≠ 0 then T.upper c else c) :: applyCase T (k &&& 2) p

theorem applyCase_0 (T : CharTab) (p : List Byte) : applyCase T 0 p = p := by
  induction p with
  | nil => rfl
  | cons c p ih => simp [applyCase, ih]

theorem applyCase_2 (T : CharTab) (p : List Byte) : applyCase T 2 p = p.map T.upper := by
  induction p with
  | nil => rfl
  | cons c p ih => simp [applyCase, ih]

theorem applyCase_1 (T : CharTab) (c : Byte) (p : List Byte) : applyCase T 1 (c :: p) = T.upper c :: p := by
  simp [applyCase, applyCase_0]

theorem applyCase_length (T : CharTab) (k : Nat) (p : List Byte) : (applyCase T k p).length = p.length := by
  induction p generalizing k with
  | nil => rfl
  | cons c p ih => simp [applyCase, ih]

theorem applyCase_nodlm (T : CharTab) (hU : T.UpOk) (k : Nat) (p : List Byte) (hb : ∀ c ∈ p, c < 256)
    (hp : ∀ c ∈ p, T.ctype c ≠ ctDlm) : ∀ c ∈ applyCase T k p, T.ctype c ≠ ctDlm := by
  induction p generalizing k with
  | nil => simp [applyCase]
  | cons c p ih =>
    intro x hx
    simp only [applyCase, List.mem_cons] at hx
    rcases hx with rfl | hx
    · split
      · exact hU.letter c (hb c (by simp)) (hp c (by simp))
      · exact hp c (by simp)
    · exact ih _ (fun c hc => hb c (by simp [hc])) (fun c hc => hp c (by simp [hc])) x hx

theorem applyCase_each (T : CharTab) (k : Nat) (p : List Byte) (hp : ∀ c ∈ p, T.ctype c ≠ ctDlm) :
    List.Forall₂ (fun a b => b = a ∨ (T.ctype a ≠ ctDlm ∧ b = T.upper a)) p (applyCase T k p) := by
  induction p generalizing k with
  | nil => simp [applyCase]
  | cons c p ih =>
    simp only [applyCase]
    refine List.Forall₂.cons ?_ (ih _ (fun c hc => hp c (by simp [hc])))
    split
    · exact Or.inr ⟨hp c (by simp), rfl⟩
    · exact Or.inl rfl

theorem setPart_eq (T : CharTab) (k : Nat) (p : List Byte) (d : Byte) (rest : List Byte)
    (hp : ∀ c ∈ p, T.ctype c ≠ ctDlm ∧ c ≠ 0) (hd : d = 0 ∨ T.ctype d = ctDlm) :
    setPart T k (p ++ d :: rest) = some (applyCase T k p, d :: rest) := by
  induction p generalizing k with
  | nil => simp [setPart, applyCase, hd]
  | cons c p ih =>
    have hc := hp c (by simp)
    rw [List.cons_append, setPart, if_neg (by simp [hc.1, hc.2]), ih _ (fun c h => hp c (by simp [h]))]
    rfl

/-- The capitalization of each of `n` parts that a scheme word asks for. -/
def kindsOf : Nat → Nat → List Nat
  | 0, _ => []
  | n + 1, scheme => (scheme &&& 3) :: kindsOf n (scheme >>> 2)

theorem kindsOf_length (n s : Nat) : (kindsOf n s).length = n := by
  induction n generalizing s with
  | zero => rfl
  | succ n ih => simp [kindsOf, ih]

theorem firstPart_append_dlm (T : CharTab) (p r : List Byte) (d : Byte) (hp : ∀ c ∈ p, T.ctype c ≠ ctDlm)
    (hd : T.ctype d = ctDlm) : firstPart T (p ++ d :: r) = p ∧ afterPart T (p ++ d :: r) = d :: r := by
  induction p with
  | nil => simp [firstPart, afterPart, hd]
  | cons c p ih =>
    have hc := hp c (by simp)
    obtain ⟨i1, i2⟩ := ih (fun c h => hp c (by simp [h]))
    simp only [firstPart, afterPart, List.cons_append] at *
    rw [List.takeWhile_cons_of_pos (by simpa using hc), List.dropWhile_cons_of_pos (by simpa using hc), i1, i2]
    exact ⟨rfl, rfl⟩

theorem firstPart_all (T : CharTab) (p : List Byte) (hp : ∀ c ∈ p, T.ctype c ≠ ctDlm) :
    firstPart T p = p ∧ afterPart T p = [] := by
  induction p with
  | nil => simp [firstPart, afterPart]
  | cons c p ih =>
    have hc := hp c (by simp)
    obtain ⟨i1, i2⟩ := ih (fun c h => hp c (by simp [h]))
    simp only [firstPart, afterPart] at *
    rw [List.takeWhile_cons_of_pos (by simpa using hc), List.dropWhile_cons_of_pos (by simpa using hc), i1, i2]
    exact ⟨rfl, rfl⟩

theorem forall₂_append {α β : Type} {R : α → β → Prop} {a b : List α} {c d : List β}
    (h1 : List.Forall₂ R a c) (h2 : List.Forall₂ R b d) : List.Forall₂ R (a ++ b) (c ++ d) := by
  induction h1 with
  | nil => exact h2
  | cons h _ ih => exact List.Forall₂.cons h ih

/-- The loop over the parts, on a zero-terminated string. -/
theorem setLoop_eq (T : CharTab) (hT : T.Ok) (hU : T.UpOk) (tail : List Byte) (n : Nat) :
    ∀ (scheme : Nat) (w : List Byte), (∀ c ∈ w, c ≠ 0 ∧ c < 256) → (wordParts T w).length = n →
    ∃ w', setLoop T n scheme (w ++ 0 :: tail) = some (w' ++ 0 :: tail) ∧
      wordParts T w' = List.zipWith (applyCase T) (kindsOf n scheme) (wordParts T w) ∧
      List.Forall₂ (fun a b => b = a ∨ (T.ctype a ≠ ctDlm ∧ b = T.upper a)) w w' := by
  induction n with
  | zero =>
    intro scheme w _ hn
    rw [wordParts_length] at hn; omega
  | succ n ih =>
    intro scheme w hw hn
    have hnd := firstPart_nodlm T w
    have hsplit := firstPart_after T w
    have hFb : ∀ c ∈ firstPart T w, c ≠ 0 ∧ c < 256 := by
      intro c hc; apply hw; rw [← hsplit]; simp [hc]
    have hF0 : ∀ c ∈ firstPart T w, T.ctype c ≠ ctDlm ∧ c ≠ 0 := fun c hc => ⟨hnd c hc, (hFb c hc).1⟩
    have hnd' := applyCase_nodlm T hU (scheme &&& 3) _ (fun c hc => (hFb c hc).2) hnd
    have heach := applyCase_each T (scheme &&& 3) _ hnd
    rw [wordParts_eq T w] at hn ⊢
    generalize hA : afterPart T w = A at *
    cases A with
    | nil =>
      simp only [List.append_nil] at hsplit
      simp only [List.length_singleton] at hn
      have hn0 : n = 0 := by omega
      subst hn0
      cases w with
      | nil =>
        refine ⟨[], ?_, ?_, List.Forall₂.nil⟩
        · simp [setLoop]
        · simp [wordParts, kindsOf, firstPart, applyCase]
      | cons c w =>
        refine ⟨applyCase T (scheme &&& 3) (c :: w), ?_, ?_, ?_⟩
        · have h1 := setPart_eq T (scheme &&& 3) (c :: w) 0 tail (by rw [hsplit] at hF0; exact hF0) (Or.inl rfl)
          rw [List.cons_append] at h1 ⊢
          rw [setLoop, if_neg (hw c (by simp)).1, h1]
          simp only [Option.bind_eq_bind, Option.bind_some]
          rw [if_pos hT.zero]
          simp [setLoop]
        · rw [hsplit] at hnd'
          rw [wordParts_eq, (firstPart_all T _ hnd').2, (firstPart_all T _ hnd').1]
          simp [kindsOf, hsplit]
        · rw [hsplit] at heach; exact heach
    | cons d r =>
      have hd : T.ctype d = ctDlm := afterPart_head T w hA
      simp only [List.length_cons] at hn
      have hr : ∀ c ∈ r, c ≠ 0 ∧ c < 256 := by
        intro c hc; apply hw; rw [← hsplit]; simp [hc]
      have hd0 : d ≠ 0 ∧ d < 256 := by apply hw; rw [← hsplit]; simp
      obtain ⟨r', i1, i2, i3⟩ := ih (scheme >>> 2) r hr (by omega)
      refine ⟨applyCase T (scheme &&& 3) (firstPart T w) ++ d :: r', ?_, ?_, ?_⟩
      · have h1 := setPart_eq T (scheme &&& 3) (firstPart T w) d (r ++ 0 :: tail) hF0 (Or.inr hd)
        have hwe : w ++ 0 :: tail = firstPart T w ++ d :: (r ++ 0 :: tail) := by
          conv_lhs => rw [← hsplit]
          simp
        have hne : ∃ e m, w ++ 0 :: tail = e :: m ∧ e ≠ 0 := by
          cases w with
          | nil => simp [afterPart] at hA
          | cons e m => exact ⟨e, m ++ 0 :: tail, rfl, (hw e (by simp)).1⟩
        obtain ⟨e, m, he, he0⟩ := hne
        rw [← hwe] at h1
        rw [he] at h1 ⊢
        rw [setLoop, if_neg he0, h1]
        simp only [Option.bind_eq_bind, Option.bind_some, if_pos hd]
        rw [i1]
        simp
      · rw [wordParts_eq, (firstPart_append_dlm T _ r' d hnd' hd).2, (firstPart_append_dlm T _ r' d hnd' hd).1]
        simp only [kindsOf, List.zipWith_cons_cons, i2]
      · conv => arg 2; rw [← hsplit]
        exact forall₂_append heach (List.Forall₂.cons (Or.inl rfl) i3)

end Libmorph
