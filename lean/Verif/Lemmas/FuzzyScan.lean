import Verif.Spec.Fuzzy
import Verif.Lemmas.Bytes
/-
The scan of the reverse dictionary visits what the tree holds under the beginnings of the reversed word.
-/
namespace Libmorph

mutual
/-- The references under the beginnings of `rev`, with the length of the rest. -/
def PTree.visits : PTree → List Byte → List (Nat × FuzzyRef)
  | .node key val kids, rev =>
    if key <+: rev then
      ((val.getD []).map fun r => (rev.length - key.length, r)) ++ PTree.visitsL kids (rev.drop key.length)
    else []
def PTree.visitsL : List PTree → List Byte → List (Nat × FuzzyRef)
  | [], _ => []
  | t :: ts, rev => t.visits rev ++ PTree.visitsL ts rev
end

theorem PTree.get_not_prefix (t : PTree) (k : List Byte) (h : ¬ t.key <+: k) : t.get k = none := by
  cases t with | node key val kids => simp only [PTree.key] at h; rw [PTree.get, if_neg h]

theorem PTree.visits_not_prefix (t : PTree) (k : List Byte) (h : ¬ t.key <+: k) : t.visits k = [] := by
  cases t with | node key val kids => simp only [PTree.key] at h; rw [PTree.visits, if_neg h]

theorem PTree.gets_nil (ts : List PTree) (h : ∀ t ∈ ts, t.key ≠ []) : PTree.gets ts [] = none := by
  induction ts with
  | nil => rfl
  | cons t ts ih =>
    rw [PTree.gets, ih fun t ht => h t (by simp [ht]), PTree.get_not_prefix]
    · rfl
    · have := h t (by simp); simpa using this

/-- What is stored under the beginnings of `rev`, by a lookup function. -/
def byLength (get : List Byte → Option (List FuzzyRef)) (rev : List Byte) : List (Nat × FuzzyRef) :=
  (List.range (rev.length + 1)).flatMap fun n => ((get (rev.take n)).getD []).map fun r => (rev.length - n, r)

theorem byLength_none (get : List Byte → Option (List FuzzyRef)) (rev : List Byte)
    (h : ∀ n ≤ rev.length, get (rev.take n) = none) : byLength get rev = [] := by
  rw [byLength, List.flatMap_eq_nil_iff]
  intro n hn
  rw [h n (by simp at hn; omega)]; rfl

theorem byLength_congr (g1 g2 : List Byte → Option (List FuzzyRef)) (rev : List Byte)
    (h : ∀ n ≤ rev.length, g1 (rev.take n) = g2 (rev.take n)) : byLength g1 rev = byLength g2 rev := by
  simp only [byLength, List.flatMap_def]
  congr 1
  apply List.map_congr_left
  intro n hn
  rw [h n (by simp at hn; omega)]

theorem head_of_prefix {a b : List Byte} (ha : a ≠ []) (h : a <+: b) : a.headD 0 = b.headD 0 := by
  cases a with
  | nil => exact absurd rfl ha
  | cons x a => obtain ⟨y, rfl⟩ := h; rfl

theorem List.headD_take {rev : List Byte} {n : Nat} (h : n ≠ 0) : (rev.take n).headD 0 = rev.headD 0 := by
  cases rev with
  | nil => simp
  | cons x r => cases n with
    | zero => exact absurd rfl h
    | succ n => rfl

theorem byLength_split (get : List Byte → Option (List FuzzyRef)) (key rest : List Byte)
    (h : ∀ n < key.length, get (key.take n) = none) :
    byLength get (key ++ rest) = byLength (fun k => get (key ++ k)) rest := by
  have e : (key ++ rest).length + 1 = key.length + (rest.length + 1) := by simp; omega
  rw [byLength, e, List.range_add, List.flatMap_append]
  have h1 : (List.range key.length).flatMap (fun n => ((get ((key ++ rest).take n)).getD []).map
      fun r => ((key ++ rest).length - n, r)) = [] := by
    rw [List.flatMap_eq_nil_iff]
    intro n hn
    simp only [List.mem_range] at hn
    rw [List.take_append_of_le_length (by omega), h n hn]; rfl
  rw [h1, List.nil_append, List.flatMap_map, byLength]
  simp only [List.flatMap_def]
  congr 1
  apply List.map_congr_left
  intro n hn
  have e1 : (key ++ rest).take (key.length + n) = key ++ rest.take n := by
    rw [List.take_append, List.take_of_length_le (by omega)]; simp
  have e2 : (key ++ rest).length - (key.length + n) = rest.length - n := by simp; omega
  simp only [e1, e2]

mutual
theorem PTree.visits_eq : ∀ (t : PTree), t.WF → ∀ rev, t.visits rev = byLength t.get rev
  | .node key val kids, h, rev => by
    by_cases hp : key <+: rev
    · obtain ⟨rest, rfl⟩ := hp
      rw [PTree.WF] at h
      obtain ⟨-, -, -, -, h5, h6, h7⟩ := h
      have ih := PTree.visitsL_eq kids h5 h6 h7 rest
      rw [PTree.visits, if_pos (by simp), List.drop_left, byLength_split _ _ _ (by
        intro n hn
        apply PTree.get_not_prefix
        intro hc
        have := hc.length_le
        simp only [PTree.key, List.length_take] at this; omega)]
      rw [byLength, List.range_succ_eq_map, List.flatMap_cons, ih, List.flatMap_map]
      have e : byLength (PTree.gets kids) rest = byLength (fun k => if k = [] then none else PTree.gets kids k) rest := by
        apply byLength_congr
        intro n _
        split
        · rename_i e; rw [e, PTree.gets_nil kids h5]
        · rfl
      rw [e, byLength, List.range_succ_eq_map, List.flatMap_cons, List.flatMap_map]
      congr 1
      · simp [PTree.get]
      · simp only [List.take_zero, if_pos, Option.getD_none, List.map_nil, List.nil_append]
        simp only [List.flatMap_def]
        congr 1
        apply List.map_congr_left
        intro n hn
        simp only [List.mem_range] at hn
        have hne : rest.take (n + 1) ≠ [] := by
          intro hc
          have := congrArg List.length hc
          rw [List.length_take, List.length_nil] at this
          omega
        simp only [Nat.succ_eq_add_one, PTree.get, List.prefix_append, if_pos, List.drop_left, if_neg hne]
    · rw [PTree.visits_not_prefix (.node key val kids) _ hp, byLength_none]
      intro n _
      apply PTree.get_not_prefix
      intro hc
      exact hp (hc.trans (List.take_prefix n rev))
theorem PTree.visitsL_eq : ∀ (ts : List PTree), (∀ t ∈ ts, t.key ≠ []) → (ts.map fun t => t.key.headD 0).Pairwise (· < ·) →
    PTree.WFs ts → ∀ rev, PTree.visitsL ts rev = byLength (PTree.gets ts) rev
  | [], _, _, _, rev => by rw [PTree.visitsL, byLength_none]; intro n _; rfl
  | t :: ts, h5, h6, h7, rev => by
    rw [PTree.WFs] at h7
    rw [List.map_cons, List.pairwise_cons] at h6
    have ih1 := PTree.visits_eq t h7.1 rev
    have ih2 := PTree.visitsL_eq ts (fun t ht => h5 t (by simp [ht])) h6.2 h7.2 rev
    rw [PTree.visitsL, ih1, ih2]
    by_cases hp : t.key <+: rev
    · have : ∀ n ≤ rev.length, PTree.gets ts (rev.take n) = none := by
        intro n hn
        by_cases h0 : n = 0
        · subst h0
          simpa using PTree.gets_nil ts (fun t ht => h5 t (by simp [ht]))
        · have hall : ∀ u ∈ ts, ¬ u.key <+: rev.take n := by
            intro u hu hc
            have a := head_of_prefix (h5 u (by simp [hu])) hc
            have b := head_of_prefix (h5 t (by simp)) hp
            rw [List.headD_take h0, ← b] at a
            have := h6.1 (u.key.headD 0) (List.mem_map_of_mem (f := fun t => PTree.key t |>.headD 0) hu)
            omega
          clear ih1 ih2 h5 h6 h7
          induction ts with
          | nil => rfl
          | cons u us ih =>
            rw [PTree.gets, PTree.get_not_prefix _ _ (hall u (by simp)), ih fun x hx => hall x (by simp [hx])]; rfl
      rw [byLength_none _ _ this, List.append_nil]
      apply byLength_congr
      intro n hn
      rw [PTree.gets, this n hn, Option.or_none]
    · have h0 : ∀ n, t.get (rev.take n) = none := by
        intro n
        apply PTree.get_not_prefix
        intro hc
        exact hp (hc.trans (List.take_prefix n rev))
      rw [byLength_none _ _ (fun n _ => h0 n), List.nil_append]
      apply byLength_congr
      intro n hn
      rw [PTree.gets, h0 n, Option.none_or]
end

/-! ### The run -/

theorem runVisits_append {σ : Type} (call : FuzzyCall σ) (a b : List (Nat × FuzzyRef)) (s : σ) :
    runVisits call (a ++ b) s = (do
      let (r, s) ← runVisits call a s
      match r with
      | some r => return (some r, s)
      | none => runVisits call b s) := by
  induction a generalizing s with
  | nil => rfl
  | cons v a ih =>
    simp only [List.cons_append, runVisits]
    cases call v.1 v.2 s with
    | none => rfl
    | some p =>
      obtain ⟨r, s'⟩ := p
      cases r with
      | none => simp only [Option.bind_eq_bind, Option.bind_some]; exact ih s'
      | some r => rfl

theorem patJump_sers (ts : List PTree) (h : PTree.WFs ts) (tl : List Byte) :
    patJump ts.length (PTree.sers ts ++ tl) = some tl := by
  induction ts generalizing tl with
  | nil => rfl
  | cons t ts ih =>
    rw [PTree.WFs] at h
    cases t with
    | node key val kids =>
      obtain ⟨h1, h2⟩ := h
      rw [PTree.WF] at h1
      obtain ⟨a1, a2, a3, -⟩ := h1
      have a2' : 2 * kids.length + (if val.isSome then 1 else 0) < 2 ^ 32 := by split <;> omega
      rw [List.length_cons, patJump, PTree.sers, PTree.ser]
      simp only [List.append_assoc] at a3 ⊢
      rw [getserial_putserial a1]
      simp only [Option.bind_eq_bind, Option.bind_some]
      rw [getserial_putserial a2']
      simp only [Option.bind_some]
      rw [List.drop_left, getserial_putserial a3]
      simp only [Option.bind_some]
      rw [← List.append_assoc (PTree.sers kids), List.drop_left]
      exact ih h2 tl

theorem patListLoop_ser {σ : Type} (call : FuzzyCall σ) (cl : Nat) (l : List FuzzyRef) (h : ∀ r ∈ l, r.Small) (tl : List Byte) (s : σ) :
    patListLoop call cl l.length ((l.map FuzzyRef.ser).flatten ++ tl) s = runVisits call (l.map fun r => (cl, r)) s := by
  induction l generalizing s with
  | nil => rfl
  | cons r l ih =>
    obtain ⟨h1, h2⟩ := h r (by simp)
    simp only [List.length_cons, patListLoop, List.map_cons, List.flatten_cons, FuzzyRef.ser, List.append_assoc, runVisits]
    rw [getserial_putserial h1]
    simp only [Option.bind_eq_bind, Option.bind_some]
    rw [getserial_putserial h2]
    simp only [Option.bind_some, List.cons_append, List.nil_append, getbyte]
    cases call cl r s with
    | none => rfl
    | some p =>
      obtain ⟨x, s'⟩ := p
      cases x with
      | some x => rfl
      | none =>
        simp only [Option.bind_some]
        exact ih (fun r hr => h r (by simp [hr])) s'

theorem patList_ser {σ : Type} (call : FuzzyCall σ) (cl : Nat) (l : List FuzzyRef) (hl : l.length < 2 ^ 32)
    (h : ∀ r ∈ l, r.Small) (tl : List Byte) (s : σ) :
    patList call cl (refsSer l ++ tl) s = runVisits call (l.map fun r => (cl, r)) s := by
  rw [patList, refsSer, List.append_assoc, getserial_putserial hl]
  exact patListLoop_ser call cl l h tl s

theorem patMatch_eq (key p rev x : List Byte) (h : key.length ≤ rev.length) :
    patMatch key.length (key ++ p) (rev ++ x) =
      some (if key <+: rev then some (p, rev.drop key.length ++ x) else none) := by
  induction key generalizing rev with
  | nil => simp [patMatch]
  | cons c key ih =>
    cases rev with
    | nil => simp at h
    | cons k rev =>
      simp only [List.length_cons, patMatch, List.cons_append, getbyte, Option.bind_eq_bind, Option.bind_some]
      simp only [List.length_cons] at h
      by_cases e : c = k
      · subst e
        rw [if_neg (by simp), ih rev (by omega)]
        simp [List.cons_prefix_cons]
      · rw [if_pos e, if_neg (by rw [List.cons_prefix_cons]; exact fun hc => e hc.1)]; rfl

/-- The image of a node after its two numbers. -/
def PTree.body : PTree → List Byte
  | .node key val kids =>
    key ++ (putserial (PTree.sers kids ++ (val.map refsSer).getD []).length ++ (PTree.sers kids ++ (val.map refsSer).getD []))

/-- The second number of a node. -/
def PTree.count : PTree → Nat
  | .node _ val kids => 2 * kids.length + (if val.isSome then 1 else 0)

theorem PTree.ser_eq (t : PTree) : t.ser = putserial t.key.length ++ (putserial t.count ++ t.body) := by
  cases t; simp only [PTree.ser, PTree.body, PTree.count, PTree.key, List.append_assoc]

theorem PTree.sers_length_le {t : PTree} {ts : List PTree} (h : t ∈ ts) : t.ser.length ≤ (PTree.sers ts).length := by
  induction ts with
  | nil => simp at h
  | cons u us ih =>
    rw [PTree.sers, List.length_append]
    rcases List.mem_cons.1 h with rfl | h
    · omega
    · have := ih h; omega

theorem visitsL_nil (ts : List PTree) (rev : List Byte) (h : ∀ t ∈ ts, ¬ t.key <+: rev) : PTree.visitsL ts rev = [] := by
  induction ts with
  | nil => rfl
  | cons t ts ih => rw [PTree.visitsL, PTree.visits_not_prefix _ _ (h t (by simp)), ih fun t ht => h t (by simp [ht])]; rfl

theorem head_ne {u : PTree} {rev : List Byte} {k : Byte} {x : List Byte} (hu : u.key ≠ []) (hr : rev ++ x = k :: (rev ++ x).tail)
    (hc : u.key.headD 0 ≠ k) : ¬ u.key <+: rev := by
  intro h
  apply hc
  rw [head_of_prefix hu h]
  cases rev with
  | nil => exact absurd (List.prefix_nil.1 h) hu
  | cons a r => simp at hr ⊢; exact hr

mutual
theorem patLoop_eq {σ : Type} (call : FuzzyCall σ) (b : Byte) (bf : List Byte) : ∀ (t : PTree), t.WF → ∀ (fuel : Nat),
    t.ser.length < fuel → ∀ (tl rev : List Byte) (s : σ),
    patLoop call fuel t.key.length t.count (t.body ++ tl) (rev ++ b :: bf) rev.length s = runVisits call (t.visits rev) s
  | .node key val kids, h, 0, hf, _, _, _ => absurd hf (by omega)
  | .node key val kids, h, fuel + 1, hf, tl, rev, s => by
    rw [PTree.WF] at h
    obtain ⟨a1, a2, a3, a4, a5, a6, a7⟩ := h
    have hf' : ∀ t ∈ kids, t.ser.length < fuel := by
      intro t ht
      have := PTree.sers_length_le ht
      rw [PTree.ser] at hf
      have hp : 0 < (putserial key.length).length := by rw [putserial]; split <;> simp
      simp only [List.length_append] at hf
      omega
    have ih := patKids_eq call b bf kids a5 a6 a7 fuel hf'
    rw [patLoop]
    by_cases h0 : (PTree.node key val kids).count = 0
    · rw [if_pos h0]
      rw [PTree.count] at h0
      have e1 : kids = [] := List.length_eq_zero_iff.1 (by omega)
      have e2 : val = none := by cases val with
        | none => rfl
        | some v => simp at h0
      subst e1 e2
      rw [PTree.visits]
      simp [PTree.visitsL, runVisits]
    · rw [if_neg h0]
      by_cases hl : rev.length < key.length
      · rw [if_pos (by exact hl), PTree.visits, if_neg fun hc => by have := hc.length_le; omega]; rfl
      · rw [if_neg (by exact hl), PTree.body, List.append_assoc]
        have := patMatch_eq key ((putserial (PTree.sers kids ++ (val.map refsSer).getD []).length
          ++ (PTree.sers kids ++ (val.map refsSer).getD [])) ++ tl) rev (b :: bf) (by omega)
        simp only [PTree.key, this, Option.bind_eq_bind, Option.bind_some]
        by_cases hp : key <+: rev
        · rw [if_pos hp, PTree.visits, if_pos hp]
          dsimp only
          rw [List.append_assoc, getserial_putserial a3]
          simp only [Option.bind_some, List.append_assoc]
          have e1 : (PTree.node key val kids).count / 2 = kids.length := by rw [PTree.count]; split <;> omega
          have e3 : rev.length - key.length = (rev.drop key.length).length := by simp
          rw [e1, patJump_sers kids a7, runVisits_append, e3]
          have ihh := fun tl => ih tl (rev.drop key.length)
          cases val with
          | none =>
            have e2 : ¬ (PTree.node key none kids).count % 2 = 1 := by rw [PTree.count]; simp
            rw [if_neg e2]
            simp only [Option.bind_some, Option.getD_none, List.map_nil, runVisits, Option.bind_eq_bind]
            exact ihh _ s
          | some l =>
            have e2 : (PTree.node key (some l) kids).count % 2 = 1 := by rw [PTree.count]; simp
            rw [if_pos e2]
            simp only [Option.bind_some, Option.map_some, Option.getD_some, Option.bind_eq_bind]
            rw [patList_ser call _ l (a4 l rfl).1 (a4 l rfl).2]
            cases runVisits call (l.map fun r => ((rev.drop key.length).length, r)) s with
            | none => rfl
            | some q =>
              obtain ⟨r, s'⟩ := q
              cases r with
              | some r => rfl
              | none => simp only [Option.bind_some]; exact ihh _ s'
        · rw [if_neg hp, PTree.visits, if_neg hp]; rfl
theorem patKids_eq {σ : Type} (call : FuzzyCall σ) (b : Byte) (bf : List Byte) : ∀ (ts : List PTree), (∀ t ∈ ts, t.key ≠ []) →
    (ts.map fun t => t.key.headD 0).Pairwise (· < ·) → PTree.WFs ts → ∀ (fuel : Nat), (∀ t ∈ ts, t.ser.length < fuel) →
    ∀ (tl rev : List Byte) (s : σ),
    ((patKids (rev ++ b :: bf) ts.length (PTree.sers ts ++ tl)).bind fun x =>
      match x with
      | none => some (none, s)
      | some (cchars, cnodes, p) => patLoop call fuel cchars cnodes p (rev ++ b :: bf) rev.length s)
      = runVisits call (PTree.visitsL ts rev) s
  | [], _, _, _, _, _, _, _, _ => rfl
  | t :: ts, h5, h6, h7, fuel, hf, tl, rev, s => by
    have ih1 := patLoop_eq call b bf t (by rw [PTree.WFs] at h7; exact h7.1) fuel (hf t (by simp)) (PTree.sers ts ++ tl) rev s
    rw [PTree.WFs] at h7
    rw [List.map_cons, List.pairwise_cons] at h6
    have ih2 := patKids_eq call b bf ts (fun t ht => h5 t (by simp [ht])) h6.2 h7.2 fuel (fun t ht => hf t (by simp [ht])) tl rev s
    obtain ⟨k, x, hk⟩ : ∃ k x, rev ++ b :: bf = k :: x := by
      cases rev with
      | nil => exact ⟨_, _, rfl⟩
      | cons a r => exact ⟨_, _, rfl⟩
    have hk' : rev ++ b :: bf = k :: (rev ++ b :: bf).tail := by rw [hk]; rfl
    have hne := h5 t (by simp)
    cases t with
    | node key val kids =>
      cases key with
      | nil => exact absurd rfl hne
      | cons c key =>
        have h7' := h7.1
        rw [PTree.WF] at h7'
        obtain ⟨a1, a2, a3, -⟩ := h7'
        have a2' : 2 * kids.length + (if val.isSome then 1 else 0) < 2 ^ 32 := by split <;> omega
        rw [List.length_cons, patKids, PTree.sers, PTree.ser_eq, PTree.count]
        simp only [PTree.key, List.append_assoc, Option.bind_eq_bind]
        rw [getserial_putserial a1]
        simp only [Option.bind_some]
        rw [getserial_putserial a2']
        simp only [Option.bind_some]
        have hb : ∀ z, getbyte ((PTree.node (c :: key) val kids).body ++ z) =
            some (c, key ++ (putserial (PTree.sers kids ++ (val.map refsSer).getD []).length
              ++ (PTree.sers kids ++ (val.map refsSer).getD [])) ++ z) := by
          intro z; simp only [PTree.body, List.cons_append, getbyte]
        have hkb : getbyte (rev ++ b :: bf) = some (k, x) := by rw [hk]; rfl
        rw [hb, hkb]
        simp only [Option.bind_some]
        rw [PTree.visitsL]
        have hn1 : c ≠ k → (PTree.node (c :: key) val kids).visits rev = [] := fun hc =>
          PTree.visits_not_prefix _ _ (head_ne (x := b :: bf) hne hk' (by simpa [PTree.key] using hc))
        have hn2 : k ≤ c → PTree.visitsL ts rev = [] := fun hc => by
          apply visitsL_nil
          intro u hu
          apply head_ne (x := b :: bf) (h5 u (by simp [hu])) hk'
          have := h6.1 (u.key.headD 0) (List.mem_map_of_mem (f := fun t => PTree.key t |>.headD 0) hu)
          have e : (PTree.node (c :: key) val kids).key.headD 0 = c := rfl
          rw [e] at this
          omega
        by_cases h1 : k > c
        · rw [if_pos h1, hn1 (by omega), List.nil_append, ← ih2]
          have e : (PTree.node (c :: key) val kids).body ++ (PTree.sers ts ++ tl) = (c :: key) ++
            (putserial (PTree.sers kids ++ (val.map refsSer).getD []).length ++ ((PTree.sers kids ++ (val.map refsSer).getD [])
              ++ (PTree.sers ts ++ tl))) := by simp only [PTree.body, List.append_assoc]
          rw [e, List.drop_left, getserial_putserial a3]
          simp only [Option.bind_some]
          rw [List.drop_left]
        · rw [if_neg h1, hn2 (by omega), List.append_nil]
          by_cases h2 : k = c
          · rw [if_pos h2]
            simp only [pure, Option.bind_some]
            exact ih1
          · rw [if_neg h2, hn1 (by omega)]; rfl
end

/-- The scan of the image of a tree. -/
theorem patScan_eq {σ : Type} (call : FuzzyCall σ) (t : PTree) (ht : t.WF) (b : Byte) (bf rev : List Byte) (s : σ) :
    patScan call t.ser (rev ++ b :: bf) rev.length s = runVisits call (byLength t.get rev) s := by
  rw [← PTree.visits_eq t ht, ← patLoop_eq call b bf t ht (t.ser.length + 1) (by omega) [] rev s, List.append_nil]
  cases t with
  | node key val kids =>
    have h := ht
    rw [PTree.WF] at h
    obtain ⟨a1, a2, a3, -⟩ := h
    have a2' : (PTree.node key val kids).count < 2 ^ 32 := by rw [PTree.count]; split <;> omega
    generalize hL : (PTree.node key val kids).ser.length = L
    rw [patScan, hL, PTree.ser_eq, getserial_putserial (by exact a1)]
    simp only [Option.bind_eq_bind, Option.bind_some]
    rw [getserial_putserial a2']
    rfl

end Libmorph
