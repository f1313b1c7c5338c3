import Verif.Model.LidTree
import Verif.Lemmas.Track
namespace Libmorph
variable {α σ ρ ρ' : Type} (c : Counter) (sv : α → List Byte) (vl : α → Nat) (P : α → Prop)

/-! ### Post-processing the result commutes with the traversal -/

/-- Apply `g` to the reported result. -/
def mapRes (g : ρ → ρ') : Option (Option ρ × σ) → Option (Option ρ' × σ)
  | none => none
  | some (r, s) => some (r.map g, s)

theorem scanKids_map (g : ρ → ρ') (act : List Byte → Frag → σ → Option (Option ρ × σ))
    (desc : List Byte → σ → Option (Option ρ × σ)) (up : Bool) (ch : Byte) (f : Frag) (n : Nat)
    (p : List Byte) (s : σ) :
    scanKids (fun p f s => mapRes g (act p f s)) (fun p s => mapRes g (desc p s)) up ch f n p s
      = mapRes g (scanKids act desc up ch f n p s) := by
  induction n generalizing p s with
  | zero => simp only [scanKids]; split <;> rfl
  | succ n ih =>
    simp only [scanKids, bind, Option.bind]
    cases getbyte p with
    | none => rfl
    | some x =>
      obtain ⟨b, p1⟩ := x
      simp only
      cases getserial p1 with
      | none => rfl
      | some y =>
        obtain ⟨sl, p2⟩ := y
        simp only
        split
        · cases desc p2 s with
          | none => rfl
          | some z =>
            obtain ⟨q, s'⟩ := z
            cases q with
            | some q => rfl
            | none => exact ih _ _
        · split
          · rfl
          · exact ih _ _

theorem scanNode_map (g : ρ → ρ') (act : List Byte → Frag → σ → Option (Option ρ × σ)) (d : Nat)
    (p : List Byte) (f : Frag) (s : σ) :
    scanNode c (fun p f s => mapRes g (act p f s)) d p f s = mapRes g (scanNode c act d p f s) := by
  induction d generalizing p f s with
  | zero => rfl
  | succ d ih =>
    simp only [scanNode, bind, Option.bind]
    cases getcount c p with
    | none => rfl
    | some x =>
      obtain ⟨fl, p1⟩ := x
      simp only
      cases chfindOf f with
      | none => rfl
      | some ch =>
        simp only
        rw [← scanKids_map]
        congr 1
        funext p s
        exact ih _ _ _

/-! ### Scanning for an exact key, zero bytes and garbage allowed -/

theorem Forest.child_depth {f : Forest α} {x : Byte} {t : Tree α} (h : f.child x = some t) :
    t.kids.depth + 1 ≤ f.depth := by
  induction f with
  | nil => simp [Forest.child] at h
  | cons ch v sub rest _ ihr =>
    simp only [Forest.child, Forest.depth] at h ⊢
    split at h
    · simp at h; subst h; simp only; omega
    · have := ihr h; omega

/-- A traversal whose fragment cannot become empty any more reports nothing to a functor that only
reacts to empty fragments. -/
theorem scanNode_dead (act : List Byte → Frag → σ → Option (Option ρ × σ))
    (hskip : ∀ p f s, f.len ≠ 0 → act p f s = some (none, s))
    (hv : ∀ x, P x → (sv x).length = vl x) :
    ∀ (d : Nat) (t : Tree α) (tl : List Byte) (f : Frag) (s : σ),
    t.All P → t.Good c vl → t.kids.depth < d → t.kids.depth < f.len → f.len < sizeMod →
    t.kids.depth < f.mem.length →
    scanNode c act d (t.ser c sv vl ++ tl) f s = some (none, s) := by
  intro d
  induction d with
  | zero => intro t tl f s _ _ h; omega
  | succ d ih =>
    intro t tl f s hP hg hd hl hm hj
    simp only [scanNode, Tree.ser, List.append_assoc, getcount_putcount c _ _ hg.1,
      bind, Option.bind, hasupper_put c _ _ hg.1, getlower_put c _ _ hg.1]
    obtain ⟨x, mem', hmem⟩ : ∃ x m, f.mem = x :: m := by
      cases h : f.mem with
      | nil => simp [h] at hj
      | cons x m => exact ⟨x, m, rfl⟩
    rw [show chfindOf f = some x by simp [chfindOf, hmem]; omega]
    simp only
    -- the value functor on this fragment is the constant one
    have hact0 : ∀ x, P x → ∀ tl (f : Frag) s, (fun (_ : List Byte) (_ : Frag) (s : σ) => (some (none, s) : Option (Option ρ × σ))) (sv x ++ tl) f s
        = (fun (_ : α) (_ : Frag) (s : σ) => (some (none, s) : Option (Option ρ × σ))) x f s := by intros; rfl
    have key : ∀ (desc : List Byte → σ → Option (Option ρ × σ)) up n p s,
        scanKids act desc up x f n p s = scanKids (fun _ _ s => some (none, s)) desc up x f n p s := by
      intro desc up n
      induction n with
      | zero => intro p s; simp only [scanKids, hskip p f s (by omega)]
      | succ n ihn =>
        intro p s
        simp only [scanKids, ihn]
    rw [key]
    rw [scanKids_ser c sv vl P _ (fun _ _ s => some (none, s)) _ (fun _ s => some (none, s)) hact0 hv x f t.val hP.1 tl t.kids hP.2 hg.2
      (by
        intro t' ht tl' s'
        have hdep := Forest.child_depth ht
        refine ih t' tl' f.next s' (Forest.child_all hP.2 ht) (Forest.child_good hg.2 ht).1 (by omega) ?_ ?_ ?_
        · simp only [Frag.next]
          have e : sizeMod = 18446744073709551616 := by unfold sizeMod; rfl
          rw [e] at hm ⊢; omega
        · simp only [Frag.next]; exact Nat.mod_lt _ (by unfold sizeMod; decide)
        · simp only [Frag.next, hmem, List.drop_succ_cons, List.drop_zero]
          simp [hmem] at hj; omega) s]
    cases t.kids.child x with
    | none => cases t.val <;> rfl
    | some t' => cases t.val <;> rfl

/-- Exact search: a functor that only reacts to an empty fragment sees exactly the value stored
under the key. -/
theorem scanNode_exact (act : List Byte → Frag → σ → Option (Option ρ × σ))
    (actA : α → σ → Option (Option ρ × σ))
    (hact : ∀ x, P x → ∀ tl f s, f.len = 0 → act (sv x ++ tl) f s = actA x s)
    (hskip : ∀ p f s, f.len ≠ 0 → act p f s = some (none, s))
    (hv : ∀ x, P x → (sv x).length = vl x) (junk : List Byte) :
    ∀ (key : List Byte) (d : Nat) (t : Tree α) (tl : List Byte) (s : σ),
    key.length < sizeMod → t.kids.depth < d → t.kids.depth + 2 < sizeMod →
    t.kids.depth < key.length + junk.length → t.All P → t.Good c vl →
    scanNode c act d (t.ser c sv vl ++ tl) (restFrag junk key) s
      = match t.find key with
        | none => some (none, s)
        | some v => actA v s := by
  intro key
  induction key with
  | nil =>
    intro d t tl s _ hd hsz hj hP hg
    obtain ⟨d, rfl⟩ : ∃ d', d = d' + 1 := ⟨d - 1, by omega⟩
    simp only [scanNode, Tree.ser, List.append_assoc, getcount_putcount c _ _ hg.1,
      bind, Option.bind, chfindOf, restFrag, List.length_nil, Nat.lt_irrefl, if_false, gt_iff_lt,
      hasupper_put c _ _ hg.1, getlower_put c _ _ hg.1, List.nil_append]
    -- replace the functor by its abstract counterpart on this fragment
    have key : ∀ (desc : List Byte → σ → Option (Option ρ × σ)) up n p s,
        scanKids act desc up 0 ⟨junk, 0⟩ n p s
          = scanKids (fun p _ s => act p ⟨junk, 0⟩ s) desc up 0 ⟨junk, 0⟩ n p s := by
      intro desc up n
      induction n with
      | zero => intro p s; simp only [scanKids]
      | succ n ihn => intro p s; simp only [scanKids, ihn]
    rw [key]
    rw [scanKids_ser c sv vl P _ (fun v _ s => actA v s) _ (fun _ s => some (none, s))
      (by intro x hx tl f s; exact hact x hx tl _ s rfl) hv 0 _ t.val hP.1 tl t.kids hP.2 hg.2
      (by
        intro t' ht tl' s'
        have hdep := Forest.child_depth ht
        simp only [List.length_nil, Nat.zero_add] at hj
        refine scanNode_dead c sv vl P act hskip hv d t' tl' _ s' (Forest.child_all hP.2 ht)
          (Forest.child_good hg.2 ht).1 (by omega) ?_ ?_ ?_
        · simp only [Frag.next]
          have e : sizeMod = 18446744073709551616 := by unfold sizeMod; rfl
          rw [e] at hsz ⊢; omega
        · simp only [Frag.next]; exact Nat.mod_lt _ (by unfold sizeMod; decide)
        · simp only [Frag.next, List.length_drop]
          omega) s]
    cases hc : t.kids.child 0 with
    | none => cases hvv : t.val <;> simp [Tree.find, hvv, valueStep]
    | some t' => cases hvv : t.val <;> simp [Tree.find, hvv, valueStep]
  | cons x key ih =>
    intro d t tl s hlen hd hsz hj hP hg
    obtain ⟨d, rfl⟩ : ∃ d', d = d' + 1 := ⟨d - 1, by omega⟩
    have hlen' : key.length < sizeMod := by simp only [List.length_cons] at hlen; omega
    simp only [scanNode, Tree.ser, List.append_assoc, getcount_putcount c _ _ hg.1,
      bind, Option.bind, hasupper_put c _ _ hg.1, getlower_put c _ _ hg.1]
    rw [show chfindOf (restFrag junk (x :: key)) = some x by simp [chfindOf, restFrag]]
    simp only [restFrag_next junk x key hlen]
    have key : ∀ (desc : List Byte → σ → Option (Option ρ × σ)) up n p s,
        scanKids act desc up x (restFrag junk (x :: key)) n p s
          = scanKids (fun _ _ s => some (none, s)) desc up x (restFrag junk (x :: key)) n p s := by
      intro desc up n
      induction n with
      | zero => intro p s; simp only [scanKids, hskip p (restFrag junk (x :: key)) s (by simp [restFrag])]
      | succ n ihn => intro p s; simp only [scanKids, ihn]
    rw [key]
    rw [scanKids_ser c sv vl P _ (fun _ _ s => some (none, s)) _
      (fun t' s => match t'.find _ with
        | none => some (none, s)
        | some v => actA v s)
      (by intros; rfl) hv x _ t.val hP.1 tl t.kids hP.2 hg.2
      (by
        intro t' h tl s
        have hdep := Forest.child_depth h
        exact ih d t' tl s hlen' (by omega) (by omega)
          (by simp only [List.length_cons] at hj; omega) (Forest.child_all hP.2 h) (Forest.child_good hg.2 h).1) s]
    simp only [Tree.find]
    cases hc : t.kids.child x with
    | none => cases t.val <;> rfl
    | some t' =>
      simp only
      cases hf : t'.find _ with
      | none => cases t.val <;> rfl
      | some v =>
        simp only
        cases actA v s with
        | none => rfl
        | some z =>
          obtain ⟨q, s'⟩ := z
          cases q <;> cases t.val <;> rfl

end Libmorph
