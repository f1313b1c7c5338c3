import Verif.Lemmas.WildList
import Verif.Lemmas.RusForms
import Verif.Model.RusWild
/-
Wildcard search in a tree of endings.
-/
namespace Libmorph
open Libmorph.Spec

variable {σ ε : Type} {cap : Nat} {reg : ε → σ → Option σ}

theorem flexKids_ser {α : Type} (sv : α → List Byte) (vl : α → Nat) (P : α → Prop) (hv : ∀ x, P x → (sv x).length = vl x)
    {step : Byte → List Byte → WildRun σ} {EL : Byte → List ε} {k : List Byte → WildRun σ} {EK : List ε} {w tl : List Byte}
    (hk : Emits cap reg w (k tl) EK) :
    ∀ f : Forest α, f.All P → f.Good .u8 vl → (0 < f.count → w.length < cap) →
      (∀ ch t tl, f.child ch = some t → Emits cap reg (w ++ [ch]) (step ch (t.ser .u8 sv vl ++ tl)) (EL ch)) →
      Emits cap reg w (fun st => kidsThen k (flexKids step w.length f.count (f.kidsSer .u8 sv vl ++ tl) st))
        (f.chars.flatMap EL ++ EK) := by
  intro f
  induction f with
  | nil =>
    intro _ _ _ _
    simpa [kidsThen, flexKids, Forest.count, Forest.kidsSer, Forest.chars] using hk
  | cons ch v sub rest _ ih =>
    intro hP hg hw hd
    have hw : w.length < cap := hw (by simp [Forest.count])
    obtain ⟨tl1, sl, h1, h2, h3⟩ := kidsSer_cons_read .u8 sv vl P hv hP hg tl
    have e1 := Emits.after_poke ch hw (hd ch ⟨v, sub⟩ (rest.kidsSer .u8 sv vl ++ tl) (by simp [Forest.child]))
    have e2 := ih hP.2.2 hg.2.2.2.2.2 (fun _ => hw) (fun x t tl' hx => hd x t tl' (rest_child hg hx).1)
    have e3 := e1.seq e2
    simp only [Forest.chars, List.flatMap_cons, List.append_assoc]
    refine e3.congr ?_
    intro buf s _ _
    rw [h1]
    simp only [Forest.count, flexKids, getbyte, WildRun.seq, bind, Option.bind, h2, h3]
    cases poke1 w.length ch (buf, s) with
    | none => rfl
    | some st =>
      dsimp only
      cases step ch ((Tree.mk v sub).ser .u8 sv vl ++ (rest.kidsSer .u8 sv vl ++ tl)) st with
      | none => rfl
      | some z =>
        obtain ⟨r, st'⟩ := z
        dsimp only
        by_cases hr : r = 0
        · simp [hr]
        · simp [hr, kidsThen]

/-- What is emitted for one ending and description. -/
def flexEv (ev : List Byte → Gram → ε) (w post : List Byte) (q : List Byte × FlexInfo) : ε :=
  ev (w ++ q.1 ++ post) ⟨0, 0, q.2.gramm, q.2.flags⟩

/-- The node's own descriptions, as often as the template reads the suffix. -/
def ownList (filter : FlexInfo → Bool) (r post : List Byte) (l : List FlexInfo) : List (List Byte × FlexInfo) :=
  (l.filter filter).flatMap fun g => List.replicate (wildWays r post) ([], g)

theorem flexOwn_ser {out : WildOut σ} {ev : List Byte → Gram → ε} (hout : OutEmits cap reg out ev) (filter : FlexInfo → Bool)
    (r post w tl : List Byte) (hl : w.length + post.length ≤ cap) (hs : ∀ c ∈ post, c ≠ 42 ∧ c ≠ 63) :
    ∀ l : List FlexInfo, (∀ g ∈ l, g.gramm < 65536 ∧ g.flags < 256) →
      Emits cap reg w (flexOwn out filter r post w.length l.length ((l.map gramSer).flatten ++ tl))
        ((ownList filter r post l).map (flexEv ev w post)) := by
  intro l
  induction l with
  | nil => intro _; exact Emits.done
  | cons g l ih =>
    intro h
    obtain ⟨h1, h2⟩ := h g (by simp)
    have e2 := ih (fun x hx => h x (by simp [hx]))
    have hread : ∀ st, flexOwn out filter r post w.length (g :: l).length (((g :: l).map gramSer).flatten ++ tl) st
        = if filter g then (WildRun.seq (scanSuffix out r post w.length ⟨0, 0, g.gramm, g.flags⟩)
            (flexOwn out filter r post w.length l.length ((l.map gramSer).flatten ++ tl))) st
          else flexOwn out filter r post w.length l.length ((l.map gramSer).flatten ++ tl) st := by
      intro st
      simp only [List.length_cons, List.map_cons, List.flatten_cons, List.append_assoc, flexOwn, gramSer, bind, Option.bind,
        getword16_putword16 h1, List.cons_append, List.nil_append, getbyte, Nat.mod_eq_of_lt h2]
    by_cases hf : filter g = true
    · have e1 := scanSuffix_emits hout ⟨0, 0, g.gramm, g.flags⟩ r post w hl hs
      rw [show ownList filter r post (g :: l) = List.replicate (wildWays r post) ([], g) ++ ownList filter r post l by
        simp [ownList, hf]]
      rw [List.map_append, List.map_replicate]
      refine Emits.congr (f := WildRun.seq (scanSuffix out r post w.length ⟨0, 0, g.gramm, g.flags⟩)
            (flexOwn out filter r post w.length l.length ((l.map gramSer).flatten ++ tl))) ?_ ?_
      · refine Emits.seq ?_ e2
        simpa [flexEv] using e1
      · intro buf s _ _
        rw [hread, if_pos hf]
    · rw [show ownList filter r post (g :: l) = ownList filter r post l by simp [ownList, hf]]
      refine e2.congr ?_
      intro buf s _ _
      rw [hread, if_neg hf]

/-- The template `r` accepts the ending `p`, followed by the suffix `post`; `z = false`: an asterisk at the beginning
must read a letter of the ending, or read the suffix. -/
def FlexHit (post : List Byte) : Bool → List Byte → List Byte → Prop
  | true, r, p => WildMatch r (p ++ post)
  | false, r, [] => post ≠ [] ∧ WildMatch r post
  | false, r, _ :: p => WildMatch r (p ++ post)

theorem wildWays_starLast : ∀ r w : List Byte, StarLast r → wildWays r w ≤ 1 := by
  intro r w
  induction r, w using wildWays.induct with
  | case1 => intro _; simp [wildWays]
  | case2 x w => intro _; simp [wildWays]
  | case3 p ih => intro h; rw [wildWays, if_pos rfl]; exact ih h.2
  | case4 c p h => intro _; rw [wildWays, if_neg h]; omega
  | case5 p x w ih1 ih2 =>
    intro h
    have := h.1 rfl
    subst this
    rw [wildWays, if_pos rfl]
    have h0 : wildWays [] (x :: w) = 0 := by simp [wildWays]
    have := ih2 h
    omega
  | case6 c p x w h1 h2 ih => intro h; rw [wildWays, if_neg h1, if_pos h2]; exact ih h.2
  | case7 c p x w h1 h2 => intro _; rw [wildWays, if_neg h1, if_neg h2]; omega

theorem wildRests_starLast : ∀ r w : List Byte, StarLast r → (wildRests r w).length ≤ 1 := by
  intro r w
  induction r, w using wildRests.induct with
  | case1 p => intro _; simp [wildRests]
  | case2 x w => intro _; simp [wildRests]
  | case3 p x w ih1 ih2 =>
    intro h
    have := h.1 rfl
    subst this
    rw [wildRests, if_pos rfl]
    have h0 : wildRests [] (x :: w) = [] := by simp [wildRests]
    rw [h0]
    exact ih2 h
  | case4 c p x w h1 h2 ih => intro h; rw [wildRests, if_neg h1, if_pos h2]; exact ih h.2
  | case5 c p x w h1 h2 => intro _; rw [wildRests, if_neg h1, if_neg h2]; simp

theorem WildRest.starLast {p w r : List Byte} (h : WildRest p w r) : StarLast p → StarLast r := by
  induction h with
  | stop => exact id
  | none h _ _ => intro hs; exact absurd (hs.1 rfl) h
  | more _ ih => exact ih
  | any _ ih => intro hs; exact ih hs.2
  | same _ _ _ ih => intro hs; exact ih hs.2

theorem mem_ownList {filter : FlexInfo → Bool} {r post : List Byte} {l : List FlexInfo} {p : List Byte} {g : FlexInfo} :
    (p, g) ∈ ownList filter r post l ↔ p = [] ∧ g ∈ l ∧ filter g = true ∧ WildMatch r post := by
  simp only [ownList, List.mem_flatMap, List.mem_filter, List.mem_replicate, ← Nat.pos_iff_ne_zero, wildWays_pos, Prod.mk.injEq]
  constructor
  · rintro ⟨g', ⟨h1, h2⟩, h3, rfl, rfl⟩; exact ⟨rfl, h1, h2, h3⟩
  · rintro ⟨rfl, h1, h2, h3⟩; exact ⟨g, ⟨h1, h2⟩, h3, rfl, rfl⟩

theorem ownList_nodup {filter : FlexInfo → Bool} {r post : List Byte} {l : List FlexInfo} (hl : l.Nodup) (hr : StarLast r) :
    (ownList filter r post l).Nodup := by
  have h1 := wildWays_starLast r post hr
  rw [ownList, List.nodup_flatMap]
  refine ⟨fun g _ => ?_, ?_⟩
  · rw [List.nodup_replicate]; omega
  · refine (hl.filter _).imp ?_
    intro g g' hne x hx hx'
    rw [List.mem_replicate] at hx hx'
    have := hx.2.symm.trans hx'.2
    simp only [Prod.mk.injEq, true_and] at this
    exact hne this

/-- The part of `rusFlexAux` before the node's own descriptions. -/
def rusKids (out : WildOut σ) (filter : FlexInfo → Bool) (suffix : List Byte) (fuel : Nat) (dic : List Byte) (n : Nat) (z : Bool)
    (count : Nat) (p : List Byte) (st : WildSt σ) : List Byte → Option (Int × List Byte × WildSt σ)
  | [] => do
    let p ← skipKids count p
    return (0, p, st)
  | c :: rest => do
    let (r, st) ← (if c = 42 ∧ z = true then rusFlexAux out filter suffix fuel dic rest n true st else some (0, st) :
      Option (Int × WildSt σ))
    if r ≠ 0 then return (r, p, st)
    else flexKids (fun ch sub =>
      if c = 63 ∨ ch = c then rusFlexAux out filter suffix fuel sub rest (n + 1) true
      else if c = 42 then
        (rusFlexAux out filter suffix fuel sub rest (n + 1) true).seq (rusFlexAux out filter suffix fuel sub (c :: rest) (n + 1) false)
      else fun st => some (0, st)) n count p st

/-- The node's own descriptions. -/
def rusOwn (out : WildOut σ) (filter : FlexInfo → Bool) (inflex suffix : List Byte) (n : Nat) (has : Bool) (p : List Byte) : WildRun σ :=
  fun st =>
    if inflex.isEmpty || !suffix.isEmpty then
      if has then do
        let (nforms, p) ← getserial p
        flexOwn out filter inflex suffix n nforms p st
      else some (0, st)
    else some (0, st)

theorem rusFlexAux_step (out : WildOut σ) (filter : FlexInfo → Bool) (suffix : List Byte) (fuel : Nat) (dic inflex : List Byte) (n : Nat)
    (z : Bool) (st : WildSt σ) {u : Nat} {p : List Byte} (h : getcount .u8 dic = some (u, p)) :
    rusFlexAux out filter suffix (fuel + 1) dic inflex n z st
      = kidsThen (rusOwn out filter inflex suffix n (Counter.hasupper .u8 u))
          (rusKids out filter suffix fuel dic n z (Counter.getlower .u8 u) p st inflex) := by
  rw [rusFlexAux, h]
  cases inflex <;> rfl

theorem Forest.count_pos_depth {α : Type} {f : Forest α} (h : 0 < f.count) : 0 < f.depth := by
  cases f with
  | nil => simp [Forest.count] at h
  | cons c v sub rest => simp only [Forest.depth]; omega

/-- The search in a tree of endings. -/
theorem rusFlex_emits (filter : FlexInfo → Bool) (post : List Byte) (hs : ∀ c ∈ post, c ≠ 42 ∧ c ≠ 63) :
    ∀ (fuel : Nat) (t : Tree (List FlexInfo)) (r : List Byte) (z : Bool), t.All GramsOk → t.Good .u8 gramsLen →
      t.kids.AllCh (· ≠ 42) → (∀ p l, t.find p = some l → l.Nodup) → r.length + t.kids.depth < fuel →
      (z = false → ∃ rest, r = 42 :: rest) →
      ∃ L : List (List Byte × FlexInfo),
        (∀ (σ ε : Type) (cap : Nat) (reg : ε → σ → Option σ) (out : WildOut σ) (ev : List Byte → Gram → ε), OutEmits cap reg out ev →
          ∀ w tl : List Byte, w.length + t.kids.depth + post.length ≤ cap →
            Emits cap reg w (rusFlexAux out filter post fuel (t.ser .u8 gramsSer gramsLen ++ tl) r w.length z) (L.map (flexEv ev w post))) ∧
        (∀ p g, (p, g) ∈ L ↔ (∃ l, t.find p = some l ∧ g ∈ l) ∧ filter g = true ∧ FlexHit post z r p) ∧
        (StarLast r → L.Nodup) := by
  intro fuel
  induction fuel with
  | zero => intro _ _ _ _ _ _ _ h; omega
  | succ fuel ih =>
    intro t r z hP hg hch hnd hfuel hz
    let sv := gramsSer
    let vl := gramsLen
    have hread : ∀ tl, getcount .u8 (t.ser .u8 gramsSer gramsLen ++ tl) = some (t.kids.count + (if t.val.isSome then Counter.top .u8 else 0),
        t.kids.kidsSer .u8 gramsSer gramsLen ++ (optSer gramsSer t.val ++ tl)) := by
      intro tl
      simp only [Tree.ser, List.append_assoc]
      exact getcount_putcount .u8 _ _ hg.1 _
    have hlow := getlower_put .u8 t.kids.count t.val.isSome hg.1
    have hup := hasupper_put .u8 t.kids.count t.val.isSome hg.1
    -- the node's own descriptions
    let own : List (List Byte × FlexInfo) :=
      if r.isEmpty || !post.isEmpty then ownList filter r post (t.val.getD []) else []
    have hown : ∀ p g, (p, g) ∈ own ↔ (r = [] ∨ post ≠ []) ∧ p = [] ∧ (∃ l, t.val = some l ∧ g ∈ l) ∧ filter g = true ∧ WildMatch r post := by
      intro p g
      have hv : (∃ l, t.val = some l ∧ g ∈ l) ↔ g ∈ t.val.getD [] := by
        cases t.val <;> simp
      rw [hv]
      simp only [own]
      split
      · rename_i h0
        have h0 : r = [] ∨ post ≠ [] := by simpa using h0
        rw [mem_ownList]
        exact ⟨fun h => ⟨h0, h⟩, fun h => h.2⟩
      · rename_i h0
        have h0 : ¬ (r = [] ∨ post ≠ []) := by simpa using h0
        simp [h0]
    have hownN : StarLast r → own.Nodup := by
      intro hr
      simp only [own]
      split
      · refine ownList_nodup ?_ hr
        cases hv : t.val with
        | none => simp
        | some l => exact hnd [] l hv
      · simp
    have hownE : ∀ (σ ε : Type) (cap : Nat) (reg : ε → σ → Option σ) (out : WildOut σ) (ev : List Byte → Gram → ε), OutEmits cap reg out ev →
        ∀ w tl : List Byte, w.length + t.kids.depth + post.length ≤ cap →
          Emits cap reg w (rusOwn out filter r post w.length t.val.isSome (optSer gramsSer t.val ++ tl)) (own.map (flexEv ev w post)) := by
      intro σ ε cap reg out ev hout w tl hl
      by_cases h0 : (r.isEmpty || !post.isEmpty) = true
      · simp only [own, h0, if_true]
        cases hv : t.val with
        | none =>
          refine Emits.done.congr ?_
          intro buf s _ _
          simp [rusOwn, h0]
        | some l =>
          have hG : GramsOk l := hP.1 l hv
          refine (flexOwn_ser hout filter r post w tl (by omega) hs l hG.2).congr ?_
          intro buf s _ _
          have hgs : getserial (optSer gramsSer (some l) ++ tl) = some (l.length, (l.map gramSer).flatten ++ tl) := by
            simp only [optSer, gramsSer, List.append_assoc]
            exact getserial_putserial (by have := hG.1; omega) _
          simp only [rusOwn, h0, if_true, Option.isSome_some, hgs, bind, Option.bind]
      · simp only [own, h0]
        refine Emits.done.congr ?_
        intro buf s _ _
        simp [rusOwn, h0]
    have hunf : ∀ {σ : Type} (out : WildOut σ) (n : Nat) tl st, rusFlexAux out filter post (fuel + 1) (t.ser .u8 gramsSer gramsLen ++ tl) r n z st
        = kidsThen (rusOwn out filter r post n t.val.isSome)
            (rusKids out filter post fuel (t.ser .u8 gramsSer gramsLen ++ tl) n z t.kids.count
              (t.kids.kidsSer .u8 gramsSer gramsLen ++ (optSer gramsSer t.val ++ tl)) st r) := by
      intro σ out n tl st
      rw [rusFlexAux_step out filter post fuel _ r n z st (hread tl)]
      simp only [hlow, hup]
    -- the children with a template
    have kids : ∀ (rest : List Byte) (z' : Bool), rest.length + t.kids.depth < fuel + 1 → (z' = false → ∃ rest', rest = 42 :: rest') →
        ∃ Lc : Byte → List (List Byte × FlexInfo), ∀ ch t', t.kids.child ch = some t' →
          (∀ (σ ε : Type) (cap : Nat) (reg : ε → σ → Option σ) (out : WildOut σ) (ev : List Byte → Gram → ε), OutEmits cap reg out ev →
            ∀ w tl : List Byte, w.length + t.kids.depth + post.length ≤ cap →
            Emits cap reg (w ++ [ch]) (rusFlexAux out filter post fuel (t'.ser .u8 gramsSer gramsLen ++ tl) rest (w.length + 1) z')
              ((Lc ch).map (flexEv ev (w ++ [ch]) post))) ∧
          (∀ p g, (p, g) ∈ Lc ch ↔ (∃ l, t.find (ch :: p) = some l ∧ g ∈ l) ∧ filter g = true ∧ FlexHit post z' rest p) ∧
          (StarLast rest → (Lc ch).Nodup) := by
      intro rest z' hr hz'
      have hex : ∀ ch, ∃ L : List (List Byte × FlexInfo), ∀ t', t.kids.child ch = some t' →
          (∀ (σ ε : Type) (cap : Nat) (reg : ε → σ → Option σ) (out : WildOut σ) (ev : List Byte → Gram → ε), OutEmits cap reg out ev →
            ∀ w tl : List Byte, w.length + t.kids.depth + post.length ≤ cap →
            Emits cap reg (w ++ [ch]) (rusFlexAux out filter post fuel (t'.ser .u8 gramsSer gramsLen ++ tl) rest (w.length + 1) z')
              (L.map (flexEv ev (w ++ [ch]) post))) ∧
          (∀ p g, (p, g) ∈ L ↔ (∃ l, t.find (ch :: p) = some l ∧ g ∈ l) ∧ filter g = true ∧ FlexHit post z' rest p) ∧
          (StarLast rest → L.Nodup) := by
        intro ch
        cases hc : t.kids.child ch with
        | none => exact ⟨[], fun t' h => by simp at h⟩
        | some t' =>
          have hd := Forest.child_depth hc
          have hfind : ∀ p, t.find (ch :: p) = t'.find p := by intro p; simp [Tree.find, hc]
          obtain ⟨L, l1, l2, l3⟩ := ih t' rest z' (Forest.child_all hP.2 hc) (Forest.child_good hg.2 hc).1
            (Forest.child_allCh hch hc).1 (fun p l hl => hnd (ch :: p) l (by rw [hfind]; exact hl)) (by omega) hz'
          refine ⟨L, fun t'' h => ?_⟩
          simp only [Option.some.injEq] at h
          subst h
          refine ⟨?_, fun p g => by rw [l2, hfind], l3⟩
          intro σ ε cap reg out ev hout w tl hl
          have := l1 σ ε cap reg out ev hout (w ++ [ch]) tl (by simp only [List.length_append, List.length_singleton]; omega)
          simpa using this
      choose Lc hLc using hex
      exact ⟨Lc, hLc⟩
    have findCons : ∀ ch p l, t.find (ch :: p) = some l → ∃ t', t.kids.child ch = some t' := by
      intro ch p l h
      simp only [Tree.find] at h
      cases hc : t.kids.child ch with
      | none => simp [hc] at h
      | some t' => exact ⟨t', rfl⟩
    have nodupChars : t.kids.chars.Pairwise (· ≠ ·) := Forest.good_chars_nodup hg.2
    -- the pairs below the children
    let under : (Byte → List (List Byte × FlexInfo)) → List (List Byte × FlexInfo) :=
      fun Lc => t.kids.chars.flatMap fun ch => (Lc ch).map fun q => (ch :: q.1, q.2)
    have underMem : ∀ Lc p g, (p, g) ∈ under Lc ↔ ∃ ch q, p = ch :: q ∧ (∃ t', t.kids.child ch = some t') ∧ (q, g) ∈ Lc ch := by
      intro Lc p g
      simp only [under, List.mem_flatMap, List.mem_map, Prod.mk.injEq]
      constructor
      · rintro ⟨ch, h1, ⟨q, g'⟩, h2, rfl, rfl⟩
        exact ⟨ch, q, rfl, Forest.mem_chars_child h1, h2⟩
      · rintro ⟨ch, q, rfl, ⟨t', h1⟩, h2⟩
        exact ⟨ch, Forest.child_mem h1, (q, g), h2, rfl, rfl⟩
    have underN : ∀ Lc, (∀ ch t', t.kids.child ch = some t' → (Lc ch).Nodup) → (under Lc).Nodup := by
      intro Lc h
      simp only [under]
      rw [List.nodup_flatMap]
      refine ⟨fun ch hc => ?_, nodupChars.imp fun hab => ?_⟩
      · obtain ⟨t', hc⟩ := Forest.mem_chars_child hc
        refine List.Nodup.map ?_ (h ch t' hc)
        rintro ⟨a, b⟩ ⟨c, d⟩ he
        simpa using he
      · intro x hx hy
        obtain ⟨x', -, rfl⟩ := List.mem_map.1 hx
        obtain ⟨y', -, he⟩ := List.mem_map.1 hy
        simp only [Prod.mk.injEq, List.cons.injEq] at he
        exact hab he.1.1.symm
    have underEv : ∀ {ε : Type} (ev : List Byte → Gram → ε) (w : List Byte) Lc, (under Lc).map (flexEv ev w post)
        = t.kids.chars.flatMap fun ch => (Lc ch).map (flexEv ev (w ++ [ch]) post) := by
      intro ε ev w Lc
      simp only [under, List.map_flatMap, List.map_map]
      refine flatMap_congr' ?_
      intro ch _
      refine List.map_congr_left ?_
      intro q _
      simp [flexEv]
    have hcapk : ∀ {w : List Byte} {cap : Nat}, w.length + t.kids.depth + post.length ≤ cap → 0 < t.kids.count → w.length < cap := by
      intro w cap h1 h2
      have := Forest.count_pos_depth h2
      omega
    cases r with
    | nil =>
      have hz1 : z = true := by
        cases z
        · obtain ⟨rest, h⟩ := hz rfl; simp at h
        · rfl
      subst hz1
      refine ⟨own, ?_, ?_, hownN⟩
      · intro σ ε cap reg out ev hout w tl hl
        refine (hownE σ ε cap reg out ev hout w tl hl).congr ?_
        intro buf s _ _
        rw [hunf]
        simp [rusKids, skipKids_ser gramsSer gramsLen GramsOk gramsSer_length _ t.kids hP.2 hg.2, kidsThen]
      · intro p g
        rw [hown]
        simp only [FlexHit, wildMatch_nil, List.append_eq_nil_iff, true_or, true_and]
        constructor
        · rintro ⟨rfl, h1, h2, h3⟩; exact ⟨h1, h2, rfl, h3⟩
        · rintro ⟨h1, h2, rfl, h3⟩; exact ⟨rfl, h1, h2, h3⟩
    | cons c rest =>
      simp only [List.length_cons] at hfuel
      by_cases h42 : c = 42
      · subst h42
        obtain ⟨Lz, z1, z2, z3⟩ := ih t rest true hP hg hch hnd (by omega) (by simp)
        obtain ⟨L1, k1⟩ := kids rest true (by omega) (by simp)
        obtain ⟨L2, k2⟩ := kids (42 :: rest) false (by simp only [List.length_cons]; omega) (fun _ => ⟨rest, rfl⟩)
        let Lc : Byte → List (List Byte × FlexInfo) := fun ch => L1 ch ++ L2 ch
        refine ⟨(if z then Lz else []) ++ (under Lc ++ own), ?_, ?_, ?_⟩
        · intro σ ε cap reg out ev hout w tl hl
          have e := flexKids_ser (cap := cap) (reg := reg) gramsSer gramsLen GramsOk gramsSer_length
            (step := fun ch sub =>
              if (42 : Nat) = 63 ∨ ch = 42 then rusFlexAux out filter post fuel sub rest (w.length + 1) true
              else if (42 : Nat) = 42 then
                (rusFlexAux out filter post fuel sub rest (w.length + 1) true).seq
                  (rusFlexAux out filter post fuel sub (42 :: rest) (w.length + 1) false)
              else fun st => some (0, st))
            (EL := fun ch => (Lc ch).map (flexEv ev (w ++ [ch]) post)) (w := w)
            (hownE σ ε cap reg out ev hout w tl hl) t.kids hP.2 hg.2 (hcapk hl)
            (by
              intro ch t' tl' hc
              have hne : ¬ ((42 : Nat) = 63 ∨ ch = 42) := by
                have := (Forest.child_allCh hch hc).2
                omega
              simp only [hne, if_false, if_true, Lc, List.map_append]
              exact ((k1 ch t' hc).1 σ ε cap reg out ev hout w tl' hl).seq ((k2 ch t' hc).1 σ ε cap reg out ev hout w tl' hl))
          rw [List.map_append, List.map_append, underEv]
          have e0 : Emits cap reg w (fun st => if z = true then rusFlexAux out filter post fuel (t.ser .u8 gramsSer gramsLen ++ tl) rest w.length true st
              else some (0, st)) ((if z then Lz else []).map (flexEv ev w post)) := by
            cases z with
            | true => simpa using z1 σ ε cap reg out ev hout w tl hl
            | false => simpa using Emits.done
          refine (e0.seq e).congr ?_
          intro buf s _ _
          rw [hunf]
          simp only [rusKids, true_and, WildRun.seq, bind, Option.bind]
          cases (if z = true then rusFlexAux out filter post fuel (t.ser .u8 gramsSer gramsLen ++ tl) rest w.length true (buf, s) else some (0, (buf, s))) with
          | none => rfl
          | some q =>
            obtain ⟨r', st'⟩ := q
            dsimp only
            by_cases hr : r' = 0
            · simp [hr]
            · simp [hr, kidsThen]
        · intro p g
          rw [List.mem_append, List.mem_append, underMem, hown]
          have hz2 : (p, g) ∈ (if z then Lz else []) ↔ z = true ∧ (∃ l, t.find p = some l ∧ g ∈ l) ∧ filter g = true ∧ WildMatch rest (p ++ post) := by
            cases z with
            | true => simpa [FlexHit] using z2 p g
            | false => simp
          rw [hz2]
          have hkid : ∀ ch q, (∃ t', t.kids.child ch = some t') → ((q, g) ∈ Lc ch ↔
              (∃ l, t.find (ch :: q) = some l ∧ g ∈ l) ∧ filter g = true ∧ WildMatch (42 :: rest) (q ++ post)) := by
            rintro ch q ⟨t', hc⟩
            simp only [Lc, List.mem_append, (k1 ch t' hc).2.1, (k2 ch t' hc).2.1]
            have hw : (FlexHit post true rest q ∨ FlexHit post false (42 :: rest) q) ↔ WildMatch (42 :: rest) (q ++ post) := by
              cases q with
              | nil =>
                simp only [FlexHit, List.nil_append]
                constructor
                · rintro (h | h)
                  · exact .none h
                  · exact h.2
                · intro h
                  by_cases hp : post = []
                  · subst hp
                    rcases wildMatch_star.1 h with h | ⟨c, v, h0, -⟩
                    · exact Or.inl h
                    · simp at h0
                  · exact Or.inr ⟨hp, h⟩
              | cons d q =>
                simp only [FlexHit, List.cons_append]
                rw [wildMatch_star (w := d :: (q ++ post))]
                constructor
                · rintro (h | h)
                  · exact Or.inl h
                  · exact Or.inr ⟨_, _, rfl, h⟩
                · rintro (h | ⟨c, v, h0, h⟩)
                  · exact Or.inl h
                  · simp only [List.cons.injEq] at h0; rw [h0.2]; exact Or.inr h
            rw [← hw]
            constructor
            · rintro (⟨h1, h2, h3⟩ | ⟨h1, h2, h3⟩)
              · exact ⟨h1, h2, Or.inl h3⟩
              · exact ⟨h1, h2, Or.inr h3⟩
            · rintro ⟨h1, h2, h3 | h3⟩
              · exact Or.inl ⟨h1, h2, h3⟩
              · exact Or.inr ⟨h1, h2, h3⟩
          constructor
          · rintro (⟨rfl, h1, h2, h3⟩ | ⟨ch, q, rfl, hc, hm⟩ | ⟨h0, rfl, h1, h2, h3⟩)
            · exact ⟨h1, h2, .none h3⟩
            · rw [hkid ch q hc] at hm
              refine ⟨hm.1, hm.2.1, ?_⟩
              cases z with
              | true => exact .more hm.2.2
              | false => exact hm.2.2
            · refine ⟨h1, h2, ?_⟩
              cases z with
              | true => exact h3
              | false => exact ⟨h0.resolve_left (by simp), h3⟩
          · rintro ⟨h1, h2, h3⟩
            cases p with
            | nil =>
              cases z with
              | false => exact Or.inr (Or.inr ⟨Or.inr h3.1, rfl, h1, h2, h3.2⟩)
              | true =>
                simp only [FlexHit, List.nil_append] at h3
                by_cases hp : post = []
                · subst hp
                  rcases wildMatch_star.1 h3 with h | ⟨c, v, h0, -⟩
                  · exact Or.inl ⟨rfl, h1, h2, by simpa using h⟩
                  · simp at h0
                · exact Or.inr (Or.inr ⟨Or.inr hp, rfl, h1, h2, h3⟩)
            | cons ch q =>
              obtain ⟨l, hl, hgl⟩ := h1
              have hc := findCons ch q l hl
              cases z with
              | false => exact Or.inr (Or.inl ⟨ch, q, rfl, hc, (hkid ch q hc).2 ⟨⟨l, hl, hgl⟩, h2, h3⟩⟩)
              | true =>
                simp only [FlexHit, List.cons_append] at h3
                rcases wildMatch_star.1 h3 with h | ⟨c, v, h0, h⟩
                · exact Or.inl ⟨rfl, ⟨l, hl, hgl⟩, h2, h⟩
                · simp only [List.cons.injEq] at h0
                  exact Or.inr (Or.inl ⟨ch, q, rfl, hc, (hkid ch q hc).2 ⟨⟨l, hl, hgl⟩, h2, by rw [h0.2]; exact h⟩⟩)
        · intro hst
          have hrest : rest = [] := hst.1 rfl
          subst hrest
          have nz : (if z then Lz else []).Nodup := by cases z <;> simp [z3 trivial]
          have nu : (under Lc).Nodup := by
            refine underN Lc ?_
            intro ch t' hc
            simp only [Lc]
            rw [List.nodup_append]
            refine ⟨(k1 ch t' hc).2.2 trivial, (k2 ch t' hc).2.2 hst, ?_⟩
            rintro ⟨q, g⟩ h1 ⟨q', g'⟩ h2 he
            simp only [Prod.mk.injEq] at he
            obtain ⟨rfl, rfl⟩ := he
            have m1 := ((k1 ch t' hc).2.1 q g).1 h1
            have m2 := ((k2 ch t' hc).2.1 q g).1 h2
            have hq := m1.2.2
            simp only [FlexHit, wildMatch_nil, List.append_eq_nil_iff] at hq
            obtain ⟨rfl, hpost⟩ := hq
            exact m2.2.2.1 hpost
          rw [List.nodup_append]
          refine ⟨nz, ?_, ?_⟩
          · rw [List.nodup_append]
            refine ⟨nu, hownN hst, ?_⟩
            rintro ⟨p, g⟩ h1 ⟨p', g'⟩ h2 he
            simp only [Prod.mk.injEq] at he
            obtain ⟨rfl, rfl⟩ := he
            obtain ⟨ch, q, rfl, -⟩ := (underMem Lc p g).1 h1
            have := ((hown _ g).1 h2).2.1
            simp at this
          · rintro ⟨p, g⟩ h1 ⟨p', g'⟩ h2 he
            simp only [Prod.mk.injEq] at he
            obtain ⟨rfl, rfl⟩ := he
            have hp : p = [] ∧ post = [] := by
              cases z with
              | false => simp at h1
              | true =>
                have := ((z2 p g).1 (by simpa using h1)).2.2
                simpa [FlexHit, wildMatch_nil] using this
            obtain ⟨rfl, hpost⟩ := hp
            rcases List.mem_append.1 h2 with h2 | h2
            · obtain ⟨ch, q, h, -⟩ := (underMem Lc [] g).1 h2
              simp at h
            · have := ((hown _ g).1 h2).1
              simp [hpost] at this
      · -- not an asterisk
        have hz1 : z = true := by
          cases z
          · obtain ⟨rest', h⟩ := hz rfl; simp only [List.cons.injEq] at h; exact absurd h.1 h42
          · rfl
        subst hz1
        obtain ⟨L1, k1⟩ := kids rest true (by omega) (by simp)
        let Lc : Byte → List (List Byte × FlexInfo) := fun ch => if c = 63 ∨ ch = c then L1 ch else []
        refine ⟨under Lc ++ own, ?_, ?_, ?_⟩
        · intro σ ε cap reg out ev hout w tl hl
          have e := flexKids_ser (cap := cap) (reg := reg) gramsSer gramsLen GramsOk gramsSer_length
            (step := fun ch sub =>
              if c = 63 ∨ ch = c then rusFlexAux out filter post fuel sub rest (w.length + 1) true
              else if c = 42 then
                (rusFlexAux out filter post fuel sub rest (w.length + 1) true).seq
                  (rusFlexAux out filter post fuel sub (c :: rest) (w.length + 1) false)
              else fun st => some (0, st))
            (EL := fun ch => (Lc ch).map (flexEv ev (w ++ [ch]) post)) (w := w)
            (hownE σ ε cap reg out ev hout w tl hl) t.kids hP.2 hg.2 (hcapk hl)
            (by
              intro ch t' tl' hc
              simp only [Lc, h42, if_false]
              by_cases hcc : c = 63 ∨ ch = c
              · simp only [hcc, if_true]
                exact (k1 ch t' hc).1 σ ε cap reg out ev hout w tl' hl
              · simp only [hcc, if_false]
                exact Emits.done)
          rw [List.map_append, underEv]
          refine e.congr ?_
          intro buf s _ _
          rw [hunf]
          simp [rusKids, h42]
        · intro p g
          rw [List.mem_append, underMem, hown]
          simp only [FlexHit]
          have hm : ∀ ch v, WildMatch (c :: rest) (ch :: v) ↔ (c = 63 ∨ ch = c) ∧ WildMatch rest v := by
            intro ch v
            by_cases h63 : c = 63
            · subst h63
              rw [wildMatch_any]
              simp
            · rw [wildMatch_same h42 h63]
              constructor
              · rintro ⟨v', h1, h2⟩
                simp only [List.cons.injEq] at h1
                rw [h1.2]; exact ⟨Or.inr h1.1, h2⟩
              · rintro ⟨h1, h2⟩
                exact ⟨v, by rw [h1.resolve_left h63], h2⟩
          constructor
          · rintro (⟨ch, q, rfl, ⟨t', hc⟩, h1⟩ | ⟨h0, rfl, h1, h2, h3⟩)
            · simp only [Lc] at h1
              split at h1
              · rename_i hcc
                rw [(k1 ch t' hc).2.1] at h1
                exact ⟨h1.1, h1.2.1, (hm ch _).2 ⟨hcc, h1.2.2⟩⟩
              · simp at h1
            · exact ⟨h1, h2, h3⟩
          · rintro ⟨⟨l, hl, hgl⟩, h2, h3⟩
            cases p with
            | nil =>
              refine Or.inr ⟨Or.inr ?_, rfl, ⟨l, hl, hgl⟩, h2, h3⟩
              rintro rfl
              simp only [List.append_nil] at h3
              cases h3
              exact h42 rfl
            | cons ch q =>
              obtain ⟨t', hc⟩ := findCons ch q l hl
              rw [List.cons_append, hm] at h3
              refine Or.inl ⟨ch, q, rfl, ⟨t', hc⟩, ?_⟩
              simp only [Lc, h3.1, if_true]
              exact ((k1 ch t' hc).2.1 q g).2 ⟨⟨l, hl, hgl⟩, h2, h3.2⟩
        · intro hst
          rw [List.nodup_append]
          refine ⟨underN Lc ?_, hownN hst, ?_⟩
          · intro ch t' hc
            simp only [Lc]
            split
            · exact (k1 ch t' hc).2.2 hst.2
            · simp
          · rintro ⟨p, g⟩ h1 ⟨p', g'⟩ h2 he
            simp only [Prod.mk.injEq] at he
            obtain ⟨rfl, rfl⟩ := he
            obtain ⟨ch, q, rfl, -⟩ := (underMem Lc p g).1 h1
            have := ((hown _ g).1 h2).2.1
            simp at this

end Libmorph
