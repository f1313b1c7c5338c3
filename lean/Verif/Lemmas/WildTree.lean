import Verif.Lemmas.Wild
import Verif.Lemmas.WordTree
import Verif.Lemmas.LidScan
/-
Wildcard search: the scan of a compiled tree visits every stored string with every rest of the template.
-/
namespace Libmorph

variable {σ ε α : Type} {cap : Nat} {reg : ε → σ → Option σ}
variable (sv : α → List Byte) (vl : α → Nat) (P : α → Prop)

/-- What follows the children. -/
def kidsThen (k : List Byte → WildRun σ) (x : Option (Int × List Byte × WildSt σ)) : Option (Int × WildSt σ) :=
  x.bind fun (r, p, st) => if r ≠ 0 then some (r, st) else k p st

theorem Forest.child_mem {f : Forest α} {ch : Byte} {t : Tree α} (h : f.child ch = some t) : ch ∈ f.chars := by
  by_contra hc
  rw [Forest.child_none_of_not_mem hc] at h
  simp at h

theorem Forest.mem_chars_child {f : Forest α} {ch : Byte} (h : ch ∈ f.chars) : ∃ t, f.child ch = some t := by
  induction f with
  | nil => simp [Forest.chars] at h
  | cons c v sub rest _ ih =>
    simp only [Forest.child]
    by_cases hc : c = ch
    · exact ⟨_, if_pos hc⟩
    · simp only [Forest.chars, List.mem_cons] at h
      rw [if_neg hc]
      exact ih (h.resolve_left (fun h => hc h.symm))

theorem rest_child {c : Counter} {vl : α → Nat} {ch : Byte} {v : Option α} {sub rest : Forest α}
    (hg : (Forest.cons ch v sub rest).Good c vl) {x : Byte} {t : Tree α} (h : rest.child x = some t) :
    (Forest.cons ch v sub rest).child x = some t ∧ x ≠ ch := by
  have h1 := hg.2.1 x (Forest.child_mem h)
  have : x ≠ ch := by omega
  exact ⟨by rw [Forest.child, if_neg (fun h => this h.symm)]; exact h, this⟩

theorem anyKids_ser (hv : ∀ x, P x → (sv x).length = vl x) {desc : List Byte → WildRun σ} {EL : Byte → List ε}
    {k : List Byte → WildRun σ} {EK : List ε} {w : List Byte} (hw : w.length < cap) {tl : List Byte} (htl : tl ≠ [])
    (hk : Emits cap reg w (k tl) EK) :
    ∀ f : Forest α, f.All P → f.Good .u8 vl →
      (∀ ch t tl, f.child ch = some t → tl ≠ [] → Emits cap reg (w ++ [ch]) (desc (t.ser .u8 sv vl ++ tl)) (EL ch)) →
      Emits cap reg w (fun st => kidsThen k (anyKids desc w.length f.count (f.kidsSer .u8 sv vl ++ tl) st))
        (f.chars.flatMap EL ++ EK) := by
  intro f
  induction f with
  | nil =>
    intro _ _ _
    obtain ⟨b, tl, rfl⟩ := List.exists_cons_of_ne_nil htl
    intro buf s hb hpre
    simp only [Forest.chars, List.flatMap_nil, List.nil_append]
    have hset : w <+: buf.set w.length b := by
      obtain ⟨t, rfl⟩ := hpre
      rw [List.set_append_right _ _ (Nat.le_refl _)]
      exact List.prefix_append _ _
    have := hk (buf.set w.length b) s (by simpa using hb) hset
    simpa [kidsThen, anyKids, Forest.count, Forest.kidsSer, getbyte, bind, poke1, hb, hw] using this
  | cons ch v sub rest _ ih =>
    intro hP hg hd
    obtain ⟨tl1, sl, h1, h2, h3⟩ := kidsSer_cons_read .u8 sv vl P hv hP hg tl
    have hne : rest.kidsSer .u8 sv vl ++ tl ≠ [] := by simp [htl]
    have e1 := Emits.after_poke ch hw (hd ch ⟨v, sub⟩ _ (by simp [Forest.child]) hne)
    have e2 := ih hP.2.2 hg.2.2.2.2.2 (fun x t tl' hx => hd x t tl' (rest_child hg hx).1)
    have e3 := e1.seq e2
    simp only [Forest.chars, List.flatMap_cons, List.append_assoc]
    refine e3.congr ?_
    intro buf s _ _
    rw [h1]
    simp only [Forest.count, anyKids, getbyte, WildRun.seq, bind, Option.bind, h2, h3]
    cases poke1 w.length ch (buf, s) with
    | none => rfl
    | some st =>
      dsimp only
      cases desc ((Tree.mk v sub).ser .u8 sv vl ++ (rest.kidsSer .u8 sv vl ++ tl)) st with
      | none => rfl
      | some z =>
        obtain ⟨r, st'⟩ := z
        dsimp only
        by_cases hr : r = 0
        · simp [hr]
        · simp [hr, kidsThen]

theorem litKids_ser (hv : ∀ x, P x → (sv x).length = vl x) {desc : List Byte → WildRun σ} {EL : Byte → List ε}
    {k : List Byte → WildRun σ} {EK : List ε} {w : List Byte} (hw : w.length < cap) {tl : List Byte} (htl : tl ≠ [])
    (hk : Emits cap reg w (k tl) EK) (x : Byte) :
    ∀ f : Forest α, f.All P → f.Good .u8 vl →
      (∀ t tl, f.child x = some t → tl ≠ [] → Emits cap reg (w ++ [x]) (desc (t.ser .u8 sv vl ++ tl)) (EL x)) →
      Emits cap reg w (fun st => kidsThen k (litKids x desc w.length f.count (f.kidsSer .u8 sv vl ++ tl) st))
        ((if x ∈ f.chars then EL x else []) ++ EK) := by
  intro f
  induction f with
  | nil =>
    intro _ _ _
    simpa [kidsThen, litKids, Forest.count, Forest.kidsSer, Forest.chars] using hk
  | cons ch v sub rest _ ih =>
    intro hP hg hd
    obtain ⟨tl1, sl, h1, h2, h3⟩ := kidsSer_cons_read .u8 sv vl P hv hP hg tl
    have hne : rest.kidsSer .u8 sv vl ++ tl ≠ [] := by simp [htl]
    have hpoke : ∀ buf s, buf.length = cap → w <+: buf → poke1 (σ := σ) w.length ch (buf, s) = some (buf.set w.length ch, s) := by
      intro buf s hb _
      simp [poke1, hb, hw]
    by_cases hx : ch = x
    · subst hx
      have hnot : ch ∉ rest.chars := fun h => by have := hg.2.1 ch h; omega
      have e1 := Emits.after_poke ch hw (hd ⟨v, sub⟩ _ (by simp [Forest.child]) hne)
      have e2 := ih hP.2.2 hg.2.2.2.2.2 (fun t tl' hx => absurd (Forest.child_mem hx) hnot)
      rw [if_neg hnot, List.nil_append] at e2
      have e3 := e1.seq e2
      simp only [Forest.chars, List.mem_cons, true_or, if_true]
      refine e3.congr ?_
      intro buf s _ _
      rw [h1]
      simp only [Forest.count, litKids, getbyte, WildRun.seq, bind, Option.bind, h2, h3]
      cases poke1 w.length ch (buf, s) with
      | none => rfl
      | some st =>
        dsimp only
        simp only [ne_eq, not_true_eq_false, if_false]
        cases desc ((Tree.mk v sub).ser .u8 sv vl ++ (rest.kidsSer .u8 sv vl ++ tl)) st with
        | none => rfl
        | some z =>
          obtain ⟨r, st'⟩ := z
          dsimp only
          by_cases hr : r = 0
          · simp [hr]
          · simp [hr, kidsThen]
    · have e2 := ih hP.2.2 hg.2.2.2.2.2 (fun t tl' hx' => hd t tl' (rest_child hg hx').1)
      have hmem : (x ∈ (Forest.cons ch v sub rest).chars) = (x ∈ rest.chars) := by
        simp only [Forest.chars, List.mem_cons]
        exact propext ⟨fun h => h.resolve_left fun h => absurd h.symm hx, Or.inr⟩
      simp only [hmem]
      intro buf s hb hpre
      have hset : w <+: buf.set w.length ch := by
        obtain ⟨t, rfl⟩ := hpre
        rw [List.set_append_right _ _ (Nat.le_refl _)]
        exact List.prefix_append _ _
      have e3 := e2 (buf.set w.length ch) s (by simpa using hb) hset
      have heq : kidsThen k (litKids x desc w.length (Forest.cons ch v sub rest).count
            ((Forest.cons ch v sub rest).kidsSer .u8 sv vl ++ tl) (buf, s))
          = kidsThen k (litKids x desc w.length rest.count (rest.kidsSer .u8 sv vl ++ tl) (buf.set w.length ch, s)) := by
        rw [h1]
        simp only [Forest.count, litKids, getbyte, bind, Option.bind, hpoke buf s hb hpre, h2, h3, ne_eq, hx, not_false_eq_true, if_true]
      simp only [heq]
      exact e3

theorem skipKids_ser (hv : ∀ x, P x → (sv x).length = vl x) (tl : List Byte) :
    ∀ f : Forest α, f.All P → f.Good .u8 vl → skipKids f.count (f.kidsSer .u8 sv vl ++ tl) = some tl := by
  intro f
  induction f with
  | nil => intro _ _; simp [skipKids, Forest.count, Forest.kidsSer]
  | cons ch v sub rest _ ih =>
    intro hP hg
    obtain ⟨tl1, sl, h1, h2, h3⟩ := kidsSer_cons_read .u8 sv vl P hv hP hg tl
    rw [h1]
    simp only [Forest.count, skipKids, getbyte, bind, Option.bind, h2, h3]
    exact ih hP.2.2 hg.2.2.2.2.2

/-- Visits as events. -/
def visitEvents (EA : α → List Byte → List Byte → List ε) (w : List Byte) (L : List (α × List Byte × List Byte)) : List ε :=
  L.flatMap fun h => EA h.1 (w ++ h.2.1) h.2.2

theorem visitEvents_under (EA : α → List Byte → List Byte → List ε) (w : List Byte) (ch : Byte) (L : List (α × List Byte × List Byte)) :
    visitEvents EA w (L.map fun h => (h.1, ch :: h.2.1, h.2.2)) = visitEvents EA (w ++ [ch]) L := by
  simp [visitEvents, List.flatMap_map]

/-- The children of a node as the scan walks them. -/
def wildKids (act : List Byte → List Byte → Nat → WildRun σ) (fuel : Nat) (dic : List Byte) (n count : Nat) (p : List Byte)
    (st : WildSt σ) : List Byte → Option (Int × List Byte × WildSt σ)
  | [] => do
    let p ← skipKids count p
    return (0, p, st)
  | c :: rest =>
    if c = 63 then anyKids (fun sub => wildTree act fuel sub rest (n + 1)) n count p st
    else if c = 42 then do
      let (r, st) ← (if rest ≠ [] then wildTree act fuel dic rest n st else some (0, st) : Option (Int × WildSt σ))
      if r ≠ 0 then return (r, p, st)
      else anyKids (fun sub => wildTree act fuel sub (c :: rest) (n + 1)) n count p st
    else litKids c (fun sub => wildTree act fuel sub rest (n + 1)) n count p st

theorem wildTree_step (act : List Byte → List Byte → Nat → WildRun σ) (fuel : Nat) (dic : List Byte) (str : List Byte) (n : Nat)
    (st : WildSt σ) {u : Nat} {p : List Byte} (h : getcount .u8 dic = some (u, p)) :
    wildTree act (fuel + 1) dic str n st
      = kidsThen (fun p st => if Counter.hasupper .u8 u then act p str n st else some (0, st))
          (wildKids act fuel dic n (Counter.getlower .u8 u) p st str) := by
  rw [wildTree, h]
  cases str <;> rfl

theorem Forest.good_chars_nodup {c : Counter} {vl : α → Nat} {f : Forest α} (hg : f.Good c vl) : f.chars.Pairwise (· ≠ ·) := by
  induction f with
  | nil => exact List.Pairwise.nil
  | cons ch v sub rest _ ih =>
    rw [Forest.chars, List.pairwise_cons]
    refine ⟨fun x hx => ?_, ih hg.2.2.2.2.2⟩
    have := hg.2.1 x hx
    omega

theorem flatMap_congr' {α β : Type} {l : List α} {f g : α → List β} (h : ∀ x ∈ l, f x = g x) : l.flatMap f = l.flatMap g := by
  induction l with
  | nil => rfl
  | cons x l ih => rw [List.flatMap_cons, List.flatMap_cons, h x (by simp), ih fun y hy => h y (by simp [hy])]

/-- The order in which the scan visits the strings of a tree: each with the rest of the template. -/
def wildOrder : Nat → Tree α → List Byte → List (List Byte × List Byte)
  | 0, _, _ => []
  | _ + 1, t, [] => if t.val.isSome then [([], [])] else []
  | fuel + 1, t, c :: rest =>
    (if c = 63 then t.kids.chars.flatMap fun ch => ((t.kids.child ch).map fun t' => (wildOrder fuel t' rest).map fun h => (ch :: h.1, h.2)).getD []
      else if c = 42 then (if rest ≠ [] then wildOrder fuel t rest else []) ++
        t.kids.chars.flatMap fun ch => ((t.kids.child ch).map fun t' => (wildOrder fuel t' (c :: rest)).map fun h => (ch :: h.1, h.2)).getD []
      else if c ∈ t.kids.chars then ((t.kids.child c).map fun t' => (wildOrder fuel t' rest).map fun h => (c :: h.1, h.2)).getD [] else []) ++
    (if t.val.isSome then [([], c :: rest)] else [])

/-- The scan of a tree. -/
theorem wildTree_ser (hv : ∀ x, P x → (sv x).length = vl x) {act : List Byte → List Byte → Nat → WildRun σ}
    {EA : α → List Byte → List Byte → List ε}
    {Q : α → List Byte → Prop}
    (hact : ∀ x w r tl, Q x w → w.length < cap → Emits cap reg w (act (sv x ++ tl) r w.length) (EA x w r)) :
    ∀ (fuel : Nat) (t : Tree α) (str w : List Byte), t.All P → t.Good .u8 vl → (∀ p x, t.find p = some x → Q x (w ++ p)) →
      w.length + t.kids.depth < cap → str.length + t.kids.depth < fuel →
      ∃ L : List (α × List Byte × List Byte),
        (∀ tl, tl ≠ [] → Emits cap reg w (wildTree act fuel (t.ser .u8 sv vl ++ tl) str w.length) (visitEvents EA w L)) ∧
        (∀ x p r, (x, p, r) ∈ L ↔ t.find p = some x ∧ WildRest str p r) ∧
        (StarLast str → L.Pairwise fun a b => a.2.1 ≠ b.2.1) ∧ L.map Prod.snd = wildOrder fuel t str := by
  intro fuel
  induction fuel with
  | zero => intro _ _ _ _ _ _ _ h; omega
  | succ fuel ih =>
    intro t str w hP hg hQ hcap hfuel
    have hw : w.length < cap := by omega
    -- the node's own value
    let own : List (α × List Byte × List Byte) := (t.val.map fun x => (x, [], str)).toList
    let K : List Byte → WildRun σ := fun p st => if t.val.isSome then act p str w.length st else some (0, st)
    have hK : ∀ tl, Emits cap reg w (K (optSer sv t.val ++ tl)) (visitEvents EA w own) := by
      intro tl
      cases hval : t.val with
      | none => simpa [K, own, hval, optSer, visitEvents] using Emits.done
      | some x =>
        have := hact x w str tl (by simpa using hQ [] x hval) hw
        simpa [K, own, hval, optSer, visitEvents] using this
    have hown : ∀ x p r, (x, p, r) ∈ own ↔ t.val = some x ∧ p = [] ∧ r = str := by
      intro x p r
      simp only [own]
      cases t.val with
      | none => simp
      | some y => simp [Prod.ext_iff, eq_comm]
    have hread : ∀ tl, getcount .u8 (t.ser .u8 sv vl ++ tl) = some (t.kids.count + (if t.val.isSome then Counter.top .u8 else 0),
        t.kids.kidsSer .u8 sv vl ++ (optSer sv t.val ++ tl)) := by
      intro tl
      simp only [Tree.ser, List.append_assoc]
      exact getcount_putcount .u8 _ _ hg.1 _
    have hlow := getlower_put .u8 t.kids.count t.val.isSome hg.1
    have hup := hasupper_put .u8 t.kids.count t.val.isSome hg.1
    have hunf : ∀ tl buf s, wildTree act (fuel + 1) (t.ser .u8 sv vl ++ tl) str w.length (buf, s)
        = kidsThen K (wildKids act fuel (t.ser .u8 sv vl ++ tl) w.length t.kids.count
            (t.kids.kidsSer .u8 sv vl ++ (optSer sv t.val ++ tl)) (buf, s) str) := by
      intro tl buf s
      rw [wildTree_step act fuel _ str w.length (buf, s) (hread tl)]
      simp only [hlow, hup, K]
    have hsub : ∀ tl, tl ≠ [] → optSer sv t.val ++ tl ≠ [] := by intro tl htl; simp [htl]
    -- the children with a template
    have kids : ∀ rest : List Byte, rest.length + t.kids.depth < fuel + 1 →
        ∃ Lc : Byte → List (α × List Byte × List Byte),
          (∀ ch t' tl, t.kids.child ch = some t' → tl ≠ [] →
            Emits cap reg (w ++ [ch]) (wildTree act fuel (t'.ser .u8 sv vl ++ tl) rest (w.length + 1)) (visitEvents EA (w ++ [ch]) (Lc ch))) ∧
          (∀ ch x p r, (∃ t', t.kids.child ch = some t') → ((x, p, r) ∈ Lc ch ↔ t.find (ch :: p) = some x ∧ WildRest rest p r)) ∧
          (StarLast rest → ∀ ch ∈ t.kids.chars, (Lc ch).Pairwise fun a b => a.2.1 ≠ b.2.1) ∧
          ∀ ch ∈ t.kids.chars, ((Lc ch).map fun h => (h.1, ch :: h.2.1, h.2.2)).map Prod.snd =
            ((t.kids.child ch).map fun t' => (wildOrder fuel t' rest).map fun h => (ch :: h.1, h.2)).getD [] := by
      intro rest hr
      have hex : ∀ ch, ∃ L : List (α × List Byte × List Byte), ∀ t', t.kids.child ch = some t' →
          (∀ tl, tl ≠ [] → Emits cap reg (w ++ [ch]) (wildTree act fuel (t'.ser .u8 sv vl ++ tl) rest (w ++ [ch]).length) (visitEvents EA (w ++ [ch]) L)) ∧
          (∀ x p r, (x, p, r) ∈ L ↔ t'.find p = some x ∧ WildRest rest p r) ∧
          (StarLast rest → L.Pairwise fun a b => a.2.1 ≠ b.2.1) ∧ L.map Prod.snd = wildOrder fuel t' rest := by
        intro ch
        cases hc : t.kids.child ch with
        | none => exact ⟨[], fun t' h => by simp at h⟩
        | some t' =>
          have hd := Forest.child_depth hc
          obtain ⟨L, l1, l2, l3, l4⟩ := ih t' rest (w ++ [ch]) (Forest.child_all hP.2 hc) (Forest.child_good hg.2 hc).1
            (fun p x hx => by
              have := hQ (ch :: p) x (by simpa [Tree.find, hc] using hx)
              simpa using this)
            (by simp only [List.length_append, List.length_singleton]; omega) (by omega)
          exact ⟨L, fun t'' h => by simp only [Option.some.injEq] at h; subst h; exact ⟨l1, l2, l3, l4⟩⟩
      choose Lc hLc using hex
      refine ⟨Lc, ?_, ?_, ?_, ?_⟩
      · intro ch t' tl hc htl
        have := (hLc ch t' hc).1 tl htl
        simpa using this
      · rintro ch x p r ⟨t', hc⟩
        rw [(hLc ch t' hc).2.1, Tree.find, hc]
      · intro hs ch hc
        obtain ⟨t', hc⟩ := Forest.mem_chars_child hc
        exact (hLc ch t' hc).2.2.1 hs
      · intro ch hc
        obtain ⟨t', hc⟩ := Forest.mem_chars_child hc
        rw [hc, Option.map_some, Option.getD_some, ← (hLc ch t' hc).2.2.2, List.map_map, List.map_map]
        rfl
    have hown' : own.map Prod.snd = if t.val.isSome then [([], str)] else [] := by
      simp only [own]; cases t.val <;> simp
    have underSnd : ∀ (Lc : Byte → List (α × List Byte × List Byte)) (r : List Byte), (∀ ch ∈ t.kids.chars, ((Lc ch).map fun h => (h.1, ch :: h.2.1, h.2.2)).map Prod.snd =
            ((t.kids.child ch).map fun t' => (wildOrder fuel t' r).map fun h => (ch :: h.1, h.2)).getD []) →
        (t.kids.chars.flatMap fun ch => (Lc ch).map fun h => (h.1, ch :: h.2.1, h.2.2)).map Prod.snd =
          t.kids.chars.flatMap fun ch => ((t.kids.child ch).map fun t' => (wildOrder fuel t' r).map fun h => (ch :: h.1, h.2)).getD [] := by
      intro Lc r h
      rw [List.map_flatMap]
      exact flatMap_congr' h
    have nodupChars : t.kids.chars.Pairwise (· ≠ ·) := Forest.good_chars_nodup hg.2
    have underPw : ∀ (Lc : Byte → List (α × List Byte × List Byte)), (∀ ch ∈ t.kids.chars, (Lc ch).Pairwise fun a b => a.2.1 ≠ b.2.1) →
        ((t.kids.chars.flatMap fun ch => (Lc ch).map fun h => (h.1, ch :: h.2.1, h.2.2)) ++ own).Pairwise fun a b => a.2.1 ≠ b.2.1 := by
      intro Lc h
      rw [List.pairwise_append]
      refine ⟨?_, ?_, ?_⟩
      · rw [List.pairwise_flatMap]
        refine ⟨fun ch hc => ?_, nodupChars.imp fun hab => ?_⟩
        · rw [List.pairwise_map]
          exact (h ch hc).imp fun hab he => hab (by simpa using he)
        · intro x hx y hy he
          obtain ⟨x', -, rfl⟩ := List.mem_map.1 hx
          obtain ⟨y', -, rfl⟩ := List.mem_map.1 hy
          simp only [List.cons.injEq] at he
          exact hab he.1
      · simp only [own]; cases t.val <;> simp
      · intro a ha b hb he
        obtain ⟨ch, -, ha⟩ := List.mem_flatMap.1 ha
        obtain ⟨x', -, rfl⟩ := List.mem_map.1 ha
        obtain ⟨y, z, r⟩ := b
        rw [hown] at hb
        rw [hb.2.1] at he
        simp at he
    have under : ∀ (Lc : Byte → List (α × List Byte × List Byte)) (l : List Byte),
        l.flatMap (fun ch => visitEvents EA (w ++ [ch]) (Lc ch))
          = visitEvents EA w (l.flatMap fun ch => (Lc ch).map fun h => (h.1, ch :: h.2.1, h.2.2)) := by
      intro Lc l
      induction l with
      | nil => rfl
      | cons ch l ihl =>
        rw [List.flatMap_cons, List.flatMap_cons, ihl, ← visitEvents_under]
        simp [visitEvents]
    have underMem : ∀ (Lc : Byte → List (α × List Byte × List Byte)) (l : List Byte) x p r,
        (x, p, r) ∈ (l.flatMap fun ch => (Lc ch).map fun h => (h.1, ch :: h.2.1, h.2.2)) ↔
          ∃ ch ∈ l, ∃ q, p = ch :: q ∧ (x, q, r) ∈ Lc ch := by
      intro Lc l x p r
      simp only [List.mem_flatMap, List.mem_map]
      constructor
      · rintro ⟨ch, h1, ⟨y, q, r'⟩, h2, h3⟩
        simp only [Prod.mk.injEq] at h3
        obtain ⟨rfl, rfl, rfl⟩ := h3
        exact ⟨ch, h1, q, rfl, h2⟩
      · rintro ⟨ch, h1, q, rfl, h2⟩
        exact ⟨ch, h1, (x, q, r), h2, rfl⟩
    have findCons : ∀ ch p x, t.find (ch :: p) = some x → ch ∈ t.kids.chars := by
      intro ch p x h
      by_contra hc
      simp [Tree.find, Forest.child_none_of_not_mem hc] at h
    have vapp : ∀ L1 L2, visitEvents EA w (L1 ++ L2) = visitEvents EA w L1 ++ visitEvents EA w L2 := by
      intro L1 L2; simp [visitEvents]
    cases str with
    | nil =>
      refine ⟨own, fun tl htl => ?_, ?_, fun _ => by simp only [own]; cases t.val <;> simp, by rw [hown', wildOrder]⟩
      · refine (hK tl).congr ?_
        intro buf s _ _
        rw [hunf]
        simp [wildKids, skipKids_ser sv vl P hv _ t.kids hP.2 hg.2, kidsThen]
      · intro x p r
        rw [hown]
        constructor
        · rintro ⟨h1, rfl, rfl⟩
          exact ⟨h1, .stop⟩
        · rintro ⟨h1, h2⟩
          cases h2
          exact ⟨h1, rfl, rfl⟩
    | cons c rest =>
      simp only [List.length_cons] at hfuel
      by_cases h63 : c = 63
      · subst h63
        obtain ⟨Lc, k1, k2, k3, k4⟩ := kids rest (by omega)
        refine ⟨(t.kids.chars.flatMap fun ch => (Lc ch).map fun h => (h.1, ch :: h.2.1, h.2.2)) ++ own, fun tl htl => ?_, ?_, fun hs => underPw Lc (k3 hs.2),
          by rw [List.map_append, hown', underSnd Lc rest k4, wildOrder, if_pos rfl]⟩
        · have e := anyKids_ser sv vl P hv (desc := fun sub => wildTree act fuel sub rest (w.length + 1)) (EL := fun ch => visitEvents EA (w ++ [ch]) (Lc ch)) hw (hsub tl htl) (hK tl) t.kids hP.2 hg.2 k1
          rw [vapp, ← under]
          refine e.congr ?_
          intro buf s _ _
          rw [hunf]
          rfl
        · intro x p r
          rw [List.mem_append, underMem, hown]
          constructor
          · rintro (⟨ch, h1, q, rfl, h2⟩ | ⟨h1, rfl, rfl⟩)
            · rw [k2 ch _ _ _ (Forest.mem_chars_child h1)] at h2
              exact ⟨h2.1, .any h2.2⟩
            · exact ⟨h1, .stop⟩
          · rintro ⟨h1, h2⟩
            cases h2 with
            | stop => exact Or.inr ⟨h1, rfl, rfl⟩
            | @any _ q _ ch h2 =>
              left
              have := findCons _ _ _ h1
              exact ⟨ch, this, q, rfl, (k2 ch _ _ _ (Forest.mem_chars_child this)).2 ⟨h1, h2⟩⟩
            | same _ h => exact absurd rfl h
      · by_cases h42 : c = 42
        · subst h42
          obtain ⟨Lc, k1, k2, k3, k4⟩ := kids (42 :: rest) (by simp only [List.length_cons]; omega)
          have zero : ∃ L0 : List (α × List Byte × List Byte),
              (∀ tl, tl ≠ [] → Emits cap reg w (fun st => if rest ≠ [] then wildTree act fuel (t.ser .u8 sv vl ++ tl) rest w.length st else some (0, st)) (visitEvents EA w L0)) ∧
              (∀ x p r, (x, p, r) ∈ L0 ↔ rest ≠ [] ∧ t.find p = some x ∧ WildRest rest p r) ∧ L0.map Prod.snd = if rest ≠ [] then wildOrder fuel t rest else [] := by
            by_cases hr : rest = []
            · refine ⟨[], fun tl _ => ?_, by simp [hr], by simp [hr]⟩
              simpa [hr, visitEvents] using Emits.done
            · obtain ⟨L, l1, l2, -, l4⟩ := ih t rest w hP hg hQ hcap (by omega)
              refine ⟨L, fun tl htl => ?_, ?_, by rw [l4, if_pos hr]⟩
              · simpa [hr] using l1 tl htl
              · intro x p r; rw [l2]; simp [hr]
          obtain ⟨L0, z1, z2, z3⟩ := zero
          refine ⟨L0 ++ ((t.kids.chars.flatMap fun ch => (Lc ch).map fun h => (h.1, ch :: h.2.1, h.2.2)) ++ own), fun tl htl => ?_, ?_, fun hs => ?_,
            by rw [List.map_append, List.map_append, hown', underSnd Lc _ k4, z3, wildOrder, if_neg h63, if_pos rfl, List.append_assoc]⟩
          · have e := anyKids_ser sv vl P hv (desc := fun sub => wildTree act fuel sub (42 :: rest) (w.length + 1)) (EL := fun ch => visitEvents EA (w ++ [ch]) (Lc ch)) hw (hsub tl htl) (hK tl) t.kids hP.2 hg.2 k1
            have e' := (z1 tl htl).seq e
            rw [vapp, vapp, ← under]
            refine e'.congr ?_
            intro buf s _ _
            rw [hunf]
            simp only [wildKids, h63, if_false, if_true, WildRun.seq, bind]
            cases (if rest ≠ [] then wildTree act fuel (t.ser .u8 sv vl ++ tl) rest w.length (buf, s) else some (0, (buf, s)) : Option (Int × WildSt σ)) with
            | none => rfl
            | some z =>
              obtain ⟨r, st⟩ := z
              by_cases hr : r = 0
              · subst hr; simp
              · simp [hr, kidsThen]
          · intro x p r
            rw [List.mem_append, List.mem_append, underMem, hown, z2]
            constructor
            · rintro (⟨h0, h1, h2⟩ | ⟨ch, h1, q, rfl, h2⟩ | ⟨h1, rfl, rfl⟩)
              · exact ⟨h1, .none h0 h2⟩
              · rw [k2 ch _ _ _ (Forest.mem_chars_child h1)] at h2
                exact ⟨h2.1, .more h2.2⟩
              · exact ⟨h1, .stop⟩
            · rintro ⟨h1, h2⟩
              cases h2 with
              | stop => exact Or.inr (Or.inr ⟨h1, rfl, rfl⟩)
              | none h0 h2 => exact Or.inl ⟨h0, h1, h2⟩
              | @more _ q _ ch h2 =>
                right; left
                have := findCons _ _ _ h1
                exact ⟨ch, this, q, rfl, (k2 ch _ _ _ (Forest.mem_chars_child this)).2 ⟨h1, h2⟩⟩
              | same h => exact absurd rfl h
          · have hr := hs.1 rfl
            have h0 : L0 = [] := by
              rw [List.eq_nil_iff_forall_not_mem]
              rintro ⟨x, p, r⟩ hm
              exact ((z2 x p r).1 hm).1 hr
            rw [h0, List.nil_append]
            exact underPw Lc (k3 hs)
        · obtain ⟨Lc, k1, k2, k3, k4⟩ := kids rest (by omega)
          refine ⟨(if c ∈ t.kids.chars then (Lc c).map fun h => (h.1, c :: h.2.1, h.2.2) else []) ++ own, fun tl htl => ?_, ?_, fun hs => ?_, by
            rw [List.map_append, hown', wildOrder, if_neg h63, if_neg h42]
            congr 1
            by_cases hc : c ∈ t.kids.chars
            · rw [if_pos hc, if_pos hc, k4 c hc]
            · rw [if_neg hc, if_neg hc]; rfl⟩
          · have e := litKids_ser sv vl P hv (desc := fun sub => wildTree act fuel sub rest (w.length + 1)) (EL := fun ch => visitEvents EA (w ++ [ch]) (Lc ch)) hw (hsub tl htl) (hK tl) c t.kids hP.2 hg.2
              (fun t' tl' => k1 c t' tl')
            have hev : visitEvents EA w (if c ∈ t.kids.chars then (Lc c).map fun h => (h.1, c :: h.2.1, h.2.2) else [])
                = if c ∈ t.kids.chars then visitEvents EA (w ++ [c]) (Lc c) else [] := by
              split
              · exact visitEvents_under EA w c _
              · rfl
            rw [vapp, hev]
            refine e.congr ?_
            intro buf s _ _
            rw [hunf]
            simp [wildKids, h63, h42]
          · intro x p r
            rw [List.mem_append, hown]
            constructor
            · rintro (h | ⟨h1, rfl, rfl⟩)
              · split at h
                · rename_i hc
                  simp only [List.mem_map, Prod.mk.injEq] at h
                  obtain ⟨⟨y, q, r'⟩, h1, rfl, rfl, rfl⟩ := h
                  rw [k2 c _ _ _ (Forest.mem_chars_child hc)] at h1
                  exact ⟨h1.1, .same h42 h63 h1.2⟩
                · simp at h
              · exact ⟨h1, .stop⟩
            · rintro ⟨h1, h2⟩
              cases h2 with
              | stop => exact Or.inr ⟨h1, rfl, rfl⟩
              | none => exact absurd rfl h42
              | more => exact absurd rfl h42
              | any => exact absurd rfl h63
              | @same _ q _ _ _ _ h2 =>
                left
                have := findCons _ _ _ h1
                rw [if_pos this]
                simp only [List.mem_map, Prod.mk.injEq]
                exact ⟨(x, q, r), (k2 c _ _ _ (Forest.mem_chars_child this)).2 ⟨h1, h2⟩, rfl, rfl, rfl⟩
          · rw [List.pairwise_append]
            refine ⟨?_, by simp only [own]; cases t.val <;> simp, ?_⟩
            · split
              · rename_i hc
                rw [List.pairwise_map]
                exact (k3 hs.2 c hc).imp fun hab he => hab (by simpa using he)
              · exact List.Pairwise.nil
            · intro a ha b hb he
              split at ha
              · obtain ⟨x', -, rfl⟩ := List.mem_map.1 ha
                obtain ⟨y, z, r⟩ := b
                rw [hown] at hb
                rw [hb.2.1] at he
                simp at he
              · simp at ha

end Libmorph
