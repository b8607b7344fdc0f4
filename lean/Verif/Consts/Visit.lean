/-
What the traversal of the dominance tree does to the blocks.
-/
import Verif.Consts.Spec
import Verif.Common.Names
import Mathlib.Data.List.Dedup
namespace Grey.Consts
open List Grey.Cfg Grey.Repair

theorem above_mem {t : DTree String} {a b : String} (h : Above t a b) : a ∈ nodes t ∧ b ∈ nodes t := by
  induction h with
  | root h => simp [nodes, h]
  | child _ ih => simp [nodes, ih]
  | sibling _ ih => simp [nodes, ih]

theorem edit_id {push : String → String} {D new : Dict} {B : Block} : (edit push D new B).id = B.id := rfl

theorem fresh_length (cs : List String) (n : Nat) : (fresh cs n).length = cs.length := by simp [fresh]

theorem fresh_names (cs : List String) (n : Nat) : (fresh cs n).map Prod.snd = (range' n cs.length).map nameOf := by
  induction cs generalizing n with
  | nil => rfl
  | cons c cs ih =>
    have := ih (n + 1)
    simp only [fresh, zipIdx_cons, map_cons, length_cons, range'_succ] at this ⊢
    rw [this]

theorem fresh_consts (cs : List String) (n : Nat) : (fresh cs n).map Prod.fst = cs := by
  induction cs generalizing n with
  | nil => rfl
  | cons c cs ih =>
    have := ih (n + 1)
    simp only [fresh, zipIdx_cons, map_cons] at this ⊢
    rw [this]

section
variable {note : List (String × String)} {rule : String → Bool} {order : List String → List String} {push : String → String}

/-- What `visit` has done: `D` are the variables known in a block, `new` those introduced in it. -/
structure Done (note : List (String × String)) (rule : String → Bool) (push : String → String) (t : DTree String) (d : Dict) (n : Nat) (G G' : BlockList)
    (n' : Nat) (A : Dict) (D new : String → Dict) : Prop where
  get : ∀ b ∈ nodes t, (∃ B, G.get b = some B) ∧ G'.get b = (G.get b).map (edit push (D b) (new b))
  other : ∀ b, b ∉ nodes t → G'.get b = G.get b
  known : ∀ b ∈ nodes t, ∀ p ∈ D b, p ∈ d ∨ p ∈ new b ∨ ∃ a, Above t a b ∧ p ∈ new a
  mine : ∀ b ∈ nodes t, ∀ p ∈ new b, p ∈ D b ∧ (b, p.1) ∈ note ∧ rule p.1 = true ∧ (p.2, p.1) ∈ A
  names : A.map Prod.fst = (range' n A.length).map nameOf
  next : n' = n + A.length
  all : ∀ q ∈ A, ∃ b ∈ nodes t, (q.2, q.1) ∈ new b
  start : G'.start = G.start

theorem visit_done (hord : ∀ l, order l ⊆ l) : ∀ (t : DTree String) (d : Dict) (n : Nat) (G G' : BlockList) (n' : Nat) (A : Dict),
    (nodes t).Nodup → visit note rule order push t d n G = some (G', n', A) →
    ∃ D new, Done note rule push t d n G G' n' A D new := by
  intro t
  induction t with
  | nil =>
    intro d n G G' n' A _ h
    simp only [visit, Option.some.injEq, Prod.mk.injEq] at h
    obtain ⟨rfl, rfl, rfl⟩ := h
    exact ⟨fun _ => [], fun _ => [], by constructor <;> simp [nodes]⟩
  | node b ch rest ih1 ih2 =>
    intro d n G G' n' A hnd h
    simp only [nodes, cons_append, nodup_cons, mem_append, not_or, nodup_append] at hnd
    obtain ⟨⟨hb1, hb2⟩, hn1, hn2, hdisj⟩ := hnd
    simp only [visit, Option.bind_eq_some_iff, Option.map_eq_some_iff] at h
    obtain ⟨B, hB, ⟨G1, n1, A1⟩, h1, ⟨G2, n2, A2⟩, h2, h3⟩ := h
    simp only [Prod.mk.injEq] at h3
    obtain ⟨rfl, rfl, rfl⟩ := h3
    generalize hcs : toIntroduce note rule order d b = cs at h1
    generalize hnew : fresh cs n = nw at h1
    obtain ⟨D1, w1, H1⟩ := ih1 _ _ _ _ _ _ hn1 h1
    obtain ⟨D2, w2, H2⟩ := ih2 _ _ _ _ _ _ hn2 h2
    have hmod : ∀ x, (G.modify b (edit push (nw ++ d) nw)).get x = if x = b then (G.get x).map (edit push (nw ++ d) nw) else G.get x :=
      fun x => by
        rw [get_modify (fun _ => edit_id)]
        split
        · rfl
        · cases G.get x <;> rfl
    have hcsub : ∀ c ∈ cs, (b, c) ∈ note ∧ rule c = true := by
      intro c hc
      rw [← hcs] at hc
      have := hord _ hc
      simp only [mem_filter, mem_dedup, mem_map] at this
      obtain ⟨⟨⟨p, ⟨hp, hpb⟩, rfl⟩, _⟩, hr⟩ := this
      rw [beq_iff_eq] at hpb
      exact ⟨by rw [← hpb]; exact hp, hr⟩
    have hnwc : ∀ p ∈ nw, p.1 ∈ cs := by
      intro p hp
      rw [← hnew] at hp
      have := mem_map_of_mem (f := Prod.fst) hp
      rwa [fresh_consts] at this
    have hlen : nw.length = cs.length := by rw [← hnew, fresh_length]
    have hch : ∀ x ∈ nodes ch, x ≠ b ∧ x ∉ nodes rest := fun x hx => ⟨fun e => hb1 (e ▸ hx), fun hx' => hdisj x hx x hx' rfl⟩
    have hre : ∀ x ∈ nodes rest, x ≠ b ∧ x ∉ nodes ch := fun x hx => ⟨fun e => hb2 (e ▸ hx), fun hx' => hdisj x hx' x hx rfl⟩
    refine ⟨fun x => if x = b then nw ++ d else if x ∈ nodes ch then D1 x else D2 x,
      fun x => if x = b then nw else if x ∈ nodes ch then w1 x else w2 x, ?_⟩
    have e1 : ∀ x ∈ nodes ch, (if x = b then nw else if x ∈ nodes ch then w1 x else w2 x) = w1 x := fun x hx => by
      rw [if_neg (hch x hx).1, if_pos hx]
    have e2 : ∀ x ∈ nodes rest, (if x = b then nw else if x ∈ nodes ch then w1 x else w2 x) = w2 x := fun x hx => by
      rw [if_neg (hre x hx).1, if_neg (hre x hx).2]
    constructor
    · intro x hx
      simp only [nodes, cons_append, mem_cons, mem_append] at hx
      rcases hx with rfl | hx | hx
      · refine ⟨⟨B, hB⟩, ?_⟩
        rw [H2.other _ hb2, H1.other _ hb1, hmod, if_pos rfl, if_pos rfl, if_pos rfl]
      · obtain ⟨⟨X, hX⟩, hg⟩ := H1.get x hx
        rw [hmod, if_neg (hch x hx).1] at hX hg
        refine ⟨⟨X, hX⟩, ?_⟩
        rw [H2.other _ (hch x hx).2, hg]
        simp only [(hch x hx).1, hx, if_false, if_true]
      · obtain ⟨⟨X, hX⟩, hg⟩ := H2.get x hx
        rw [H1.other _ (hre x hx).2, hmod, if_neg (hre x hx).1] at hX hg
        refine ⟨⟨X, hX⟩, ?_⟩
        rw [hg]
        simp only [(hre x hx).1, (hre x hx).2, if_false]
    · intro x hx
      simp only [nodes, cons_append, mem_cons, mem_append, not_or] at hx
      rw [H2.other _ hx.2.2, H1.other _ hx.2.1, hmod, if_neg hx.1]
    · intro x hx p hp
      simp only [nodes, cons_append, mem_cons, mem_append] at hx
      rcases hx with rfl | hx | hx
      · simp only [if_true, mem_append] at hp ⊢
        rcases hp with hp | hp
        · exact .inr (.inl hp)
        · exact .inl hp
      · simp only [(hch x hx).1, hx, if_false, if_true] at hp ⊢
        rcases H1.known x hx p hp with h | h | ⟨a, ha, hpa⟩
        · rcases mem_append.1 h with h | h
          · exact .inr (.inr ⟨b, .root hx, by rw [if_pos rfl]; exact h⟩)
          · exact .inl h
        · exact .inr (.inl h)
        · exact .inr (.inr ⟨a, .child ha, by rw [e1 _ (above_mem ha).1]; exact hpa⟩)
      · simp only [(hre x hx).1, (hre x hx).2, if_false] at hp ⊢
        rcases H2.known x hx p hp with h | h | ⟨a, ha, hpa⟩
        · exact .inl h
        · exact .inr (.inl h)
        · exact .inr (.inr ⟨a, .sibling ha, by rw [e2 _ (above_mem ha).1]; exact hpa⟩)
    · intro x hx p hp
      simp only [nodes, cons_append, mem_cons, mem_append] at hx
      rcases hx with rfl | hx | hx
      · simp only [if_true] at hp ⊢
        refine ⟨mem_append_left _ hp, (hcsub _ (hnwc p hp)).1, (hcsub _ (hnwc p hp)).2, mem_append_left _ ?_⟩
        exact mem_map.2 ⟨p, hp, rfl⟩
      · simp only [(hch x hx).1, hx, if_false, if_true] at hp ⊢
        obtain ⟨m1, m2, m3, m4⟩ := H1.mine x hx p hp
        exact ⟨m1, m2, m3, mem_append_right _ (mem_append_left _ m4)⟩
      · simp only [(hre x hx).1, (hre x hx).2, if_false] at hp ⊢
        obtain ⟨m1, m2, m3, m4⟩ := H2.mine x hx p hp
        exact ⟨m1, m2, m3, mem_append_right _ (mem_append_right _ m4)⟩
    · have ha : (nw.map Prod.swap).map Prod.fst = (range' n nw.length).map nameOf := by
        rw [map_map]
        show nw.map Prod.snd = _
        rw [hlen, ← hnew, fresh_names]
      rw [map_append, map_append, ha, H1.names, H2.names, H1.next]
      simp only [length_append, length_map]
      rw [← map_append, ← map_append]
      congr 1
      rw [range'_append_1, range'_append_1]
    · rw [H2.next, H1.next]
      simp only [length_append, length_map]
      omega
    · intro q hq
      rcases mem_append.1 hq with hq | hq
      · obtain ⟨p, hp, rfl⟩ := mem_map.1 hq
        exact ⟨b, by simp [nodes], by rw [if_pos rfl]; exact hp⟩
      · rcases mem_append.1 hq with hq | hq
        · obtain ⟨x, hx, hxx⟩ := H1.all q hq
          exact ⟨x, by simp [nodes, hx], by rw [e1 x hx]; exact hxx⟩
        · obtain ⟨x, hx, hxx⟩ := H2.all q hq
          exact ⟨x, by simp [nodes, hx], by rw [e2 x hx]; exact hxx⟩
    · rw [H2.start, H1.start]
      rfl

end

/-! ### The constants that are needed -/

theorem mem_mapM {α β : Type} {f : α → Option β} : ∀ {l : List α} {r : List β}, l.mapM f = some r →
    ∀ y, y ∈ r ↔ ∃ x ∈ l, f x = some y := by
  intro l
  induction l with
  | nil => intro r h; simp only [mapM_nil, Option.pure_def, Option.some.injEq] at h; subst h; simp
  | cons a l ih =>
    intro r h y
    simp only [mapM_cons, Option.pure_def, Option.bind_eq_bind, Option.bind_eq_some_iff, Option.some.injEq] at h
    obtain ⟨b, hb, rs, hrs, rfl⟩ := h
    rw [mem_cons, ih hrs y]
    constructor
    · rintro (rfl | ⟨x, hx, e⟩)
      · exact ⟨a, by simp, hb⟩
      · exact ⟨x, by simp [hx], e⟩
    · rintro ⟨x, hx, e⟩
      rcases mem_cons.1 hx with rfl | hx
      · left; rw [hb] at e; injection e with e; exact e.symm
      · exact .inr ⟨x, hx, e⟩

theorem mem_mapM_flatten {α β : Type} {f : α → Option (List β)} {l : List α} {r : List β} (h : (l.mapM f).map flatten = some r) (y : β) :
    y ∈ r ↔ ∃ x ∈ l, ∃ ys, f x = some ys ∧ y ∈ ys := by
  obtain ⟨rs, hrs, rfl⟩ := Option.map_eq_some_iff.1 h
  rw [mem_flatten]
  constructor
  · rintro ⟨ys, hys, hy⟩
    obtain ⟨x, hx, e⟩ := (mem_mapM hrs ys).1 hys
    exact ⟨x, hx, ys, e, hy⟩
  · rintro ⟨x, hx, ys, e, hy⟩
    exact ⟨ys, (mem_mapM hrs ys).2 ⟨x, hx, e⟩, hy⟩

/-- The pairs found are those that are needed. -/
theorem noted_iff {G : BlockList} {note : List (String × String)} (h : noted G = some note) (b c : String) :
    (b, c) ∈ note ↔ Needed G b c := by
  rw [mem_mapM_flatten h]
  constructor
  · rintro ⟨B, hB, ys, hys, hy⟩
    rw [mem_mapM_flatten hys] at hy
    obtain ⟨i, hi, zs, hzs, hz⟩ := hy
    rw [mem_mapM_flatten hzs] at hz
    obtain ⟨⟨a, k⟩, hak, ws, hws, hw⟩ := hz
    rw [mem_zipIdx_iff_getElem?] at hak
    simp only [notedArg] at hws
    split at hws
    · next hc =>
      rw [Bool.and_eq_true, bne_iff_ne] at hc
      split at hws
      · next hphi =>
        obtain ⟨p, hp, rfl⟩ := Option.map_eq_some_iff.1 hws
        simp only [mem_singleton, Prod.mk.injEq] at hw
        obtain ⟨rfl, rfl⟩ := hw
        exact ⟨hc.1, B, hB, i, hi, hc.2, .inr ⟨hphi, k, hp, hak⟩⟩
      · next hphi =>
        injection hws with hws
        subst hws
        simp only [mem_singleton, Prod.mk.injEq] at hw
        obtain ⟨rfl, rfl⟩ := hw
        exact ⟨hc.1, B, hB, i, hi, hc.2, .inl ⟨hphi, rfl, mem_of_getElem? hak⟩⟩
    · injection hws with hws
      subst hws
      cases hw
  · rintro ⟨hc, B, hB, i, hi, hlit, hcase⟩
    have hsome : ∃ ys, (B.instrs.mapM (notedInstr B)).map flatten = some ys := by
      obtain ⟨rs, hrs, -⟩ := Option.map_eq_some_iff.1 h
      have := mapM_some_mem hrs B hB
      exact this
    obtain ⟨ys, hys⟩ := hsome
    refine ⟨B, hB, ys, hys, ?_⟩
    rw [mem_mapM_flatten hys]
    obtain ⟨rs, hrs, -⟩ := Option.map_eq_some_iff.1 hys
    obtain ⟨zs, hzs⟩ := mapM_some_mem hrs i hi
    refine ⟨i, hi, zs, hzs, ?_⟩
    unfold notedInstr at hzs
    rw [mem_mapM_flatten hzs]
    rcases hcase with ⟨hphi, rfl, hin⟩ | ⟨hphi, k, he, hk⟩
    · obtain ⟨k, hk⟩ := mem_iff_getElem?.1 hin
      exact ⟨(c, k), by rw [mem_zipIdx_iff_getElem?]; exact hk, [(B.id, c)], by simp [notedArg, hc, hlit, hphi], by simp⟩
    · exact ⟨(c, k), by rw [mem_zipIdx_iff_getElem?]; exact hk, [(b, c)], by simp [notedArg, hc, hphi, he], by simp⟩
where
  mapM_some_mem {α β : Type} {f : α → Option β} : ∀ {l : List α} {r : List β}, l.mapM f = some r → ∀ x ∈ l, ∃ y, f x = some y := by
    intro l
    induction l with
    | nil => intro r _ x hx; cases hx
    | cons a l ih =>
      intro r h x hx
      simp only [mapM_cons, Option.pure_def, Option.bind_eq_bind, Option.bind_eq_some_iff, Option.some.injEq] at h
      obtain ⟨b, hb, rs, hrs, rfl⟩ := h
      rcases mem_cons.1 hx with rfl | hx
      · exact ⟨b, hb⟩
      · exact ih hrs x hx

end Grey.Consts
