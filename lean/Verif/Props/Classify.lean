import Verif.Model.Classify
import Verif.Proofs.Trav
import Verif.Spec.Grouping
import Verif.Props.Classes
import Verif.Props.Count

/-! # C22: partitions -/

namespace Cru.Classify

open Net

variable {n : Nat} {N V L P : Type} [DecidableEq N] [DecidableEq V] [DecidableEq P]
  {g : Gr N V L} {prop : N → P} {hash : P → Nat} {eq : Nat → P → P → Bool × Int} {same : P → P → Bool}

/-- The partition `s` is a possible result with error code `e`. -/
def Returns (g : Gr N V L) (prop : N → P) (hash : P → Nat) (eq : Nat → P → P → Bool × Int) (hn : 0 < n)
    (s : Mem n N V) (e : Int) : Prop :=
  ∃ x : State n N (Trav.Job n N (Mem n N V)), Net.Reach (task g prop hash eq hn) g.base start x ∧ x.main = .done ∧
    ∃ w, ((∃ i, w = x.g.err i ∧ w ≠ 0) ∨ (w = 0 ∧ ∀ i, x.g.err i = 0)) ∧ returned x.g w = (some s, e)

theorem search_plain (heq : ∀ t x y, eq t x y = (same x y, 0)) (hs : IsEquality same) (m : N) (l : List N) (t : Nat) :
    (search prop eq m l t).1 = l.find? (fun r => same (prop m) (prop r)) ∧ (search prop eq m l t).2.2 = 0 := by
  induction l generalizing t with
  | nil => exact ⟨rfl, rfl⟩
  | cons r rs ih =>
    unfold search
    by_cases h : prop m = prop r
    · rw [if_pos h]; simp [h, hs.refl]
    · rw [if_neg h, heq]
      simp only [ne_eq, not_true_eq_false, if_false]
      by_cases h2 : same (prop m) (prop r) = true
      · rw [if_pos h2]; simp [h2]
      · rw [if_neg h2]
        have := ih (t + 1)
        rw [Bool.not_eq_true] at h2
        simp [h2, this]

theorem image_append (v : V) (a b : List (V × N)) : Table.imageNj v (a ++ b) = (Table.imageNj v a).or (Table.imageNj v b) := by
  induction a with
  | nil => rfl
  | cons x a ih =>
    simp only [List.cons_append, Table.imageNj]
    split_ifs <;> simp [ih]

theorem image_mem {v : V} {c : N} {a : List (V × N)} (h : Table.imageNj v a = some c) : (v, c) ∈ a := by
  induction a with
  | nil => cases h
  | cons x a ih =>
    unfold Table.imageNj at h
    split_ifs at h with h1
    · cases h; subst h1; exact List.mem_cons_self
    · exact List.mem_cons_of_mem _ (ih h)

/-- What holds during classification. -/
structure Inv (g : Gr N V L) (prop : N → P) (hash : P → Nat) (same : P → P → Bool) (hn : 0 < n)
    (seen : Fin n → List N) (err : Fin n → Int) (s : Mem n N V) : Prop where
  noErr : ∀ i, err i = 0
  home : ∀ i, ∀ m ∈ seen i, Build.lane hn (hash (prop m)) = i
  nodup : ∀ i, (seen i).Nodup
  reach : ∀ i, ∀ m ∈ seen i, Reaches (g.next false) g.base m
  /-- bins have nodes seen, with the hash of the bin -/
  bin : ∀ i h m, m ∈ s.collisions i h → m ∈ seen i ∧ hash (prop m) = h
  /-- every node seen has a representative in the bin, and it is the class of the node -/
  cls : ∀ i, ∀ m ∈ seen i, ∃ r ∈ s.collisions i (hash (prop m)), same (prop m) (prop r) = true ∧
    Table.imageNj (g.vertex m) (s.maps i) = some r
  /-- representatives are different -/
  apart : ∀ i h, (s.collisions i h).Pairwise fun a b => same (prop a) (prop b) = false
  /-- nothing else is in the maps -/
  only : ∀ i x, x ∈ s.maps i → ∃ m ∈ seen i, x.1 = g.vertex m
  /-- reference counts -/
  refs : ∀ i h r, r ∈ s.collisions i h → s.refs r + 1 = (seen i).countP fun m => same (prop m) (prop r)

theorem inv_reach (heq : ∀ t x y, eq t x y = (same x y, 0)) (hs : IsEquality same) (hh : HashRespects hash same) {hn : 0 < n}
    (hd : ∀ a b, Reaches (g.next false) g.base a → Reaches (g.next false) g.base b → g.vertex a = g.vertex b → a = b) :
    ∀ x, Bag.Reach (task g prop hash eq hn) g.base start x → Inv g prop hash same hn x.1.seen x.1.err x.1.mem := by
  refine Trav.induct (motive := Inv g prop hash same hn) ?_ ?_
  · refine ⟨fun _ => rfl, ?_, ?_, ?_, ?_, ?_, ?_, ?_, ?_⟩ <;> intros <;> simp_all
  · intro seen err s m hi hreach he hm
    have hse := search_plain heq hs (prop := prop) m (s.collisions (Build.lane hn (hash (prop m))) (hash (prop m))) s.clock
    generalize hlane : Build.lane hn (hash (prop m)) = i at *
    have hnone : Table.imageNj (g.vertex m) (s.maps i) = none := by
      rcases h : Table.imageNj (g.vertex m) (s.maps i) with _ | c
      · rfl
      · obtain ⟨m', hm', he'⟩ := hi.only i _ (image_mem h)
        have := hd m m' hreach (hi.reach i m' hm') he'
        subst this
        exact absurd hm' hm
    have hass : ∀ c, Table.associateNj (s.maps i) (g.vertex m) c = (s.maps i ++ [(g.vertex m, c)], none) := by
      intro c; unfold Table.associateNj; rw [hnone]
    have hnoErr : ∀ e : Int, e = 0 → ∀ j, Function.update err i e j = 0 := by
      intro e h j
      by_cases hj : j = i
      · subst hj; simp [h]
      · rw [Function.update_of_ne hj]; exact hi.noErr j
    have hhome : ∀ j, ∀ a ∈ Function.update seen i (seen i ++ [m]) j, Build.lane hn (hash (prop a)) = j := by
      intro j a ha
      by_cases hj : j = i
      · subst hj
        simp only [Function.update_self, List.mem_append, List.mem_singleton] at ha
        rcases ha with ha | rfl
        · exact hi.home j a ha
        · exact hlane
      · rw [Function.update_of_ne hj] at ha; exact hi.home j a ha
    have hnodup : ∀ j, (Function.update seen i (seen i ++ [m]) j).Nodup := by
      intro j
      by_cases hj : j = i
      · subst hj
        simp only [Function.update_self]
        exact List.nodup_append.2 ⟨hi.nodup j, by simp, by intro a ha b hb; simp at hb; subst hb; rintro rfl; exact hm ha⟩
      · rw [Function.update_of_ne hj]; exact hi.nodup j
    have hre : ∀ j, ∀ a ∈ Function.update seen i (seen i ++ [m]) j, Reaches (g.next false) g.base a := by
      intro j a ha
      by_cases hj : j = i
      · subst hj
        simp only [Function.update_self, List.mem_append, List.mem_singleton] at ha
        rcases ha with ha | rfl
        · exact hi.reach j a ha
        · exact hreach
      · rw [Function.update_of_ne hj] at ha; exact hi.reach j a ha
    have honly : ∀ c j x, x ∈ Function.update s.maps i (s.maps i ++ [(g.vertex m, c)]) j →
        ∃ a ∈ Function.update seen i (seen i ++ [m]) j, x.1 = g.vertex a := by
      intro c j x hx
      by_cases hj : j = i
      · subst hj
        simp only [Function.update_self, List.mem_append, List.mem_singleton] at hx ⊢
        rcases hx with hx | rfl
        · obtain ⟨a, ha, e⟩ := hi.only j x hx; exact ⟨a, .inl ha, e⟩
        · exact ⟨m, .inr rfl, rfl⟩
      · rw [Function.update_of_ne hj] at hx ⊢; exact hi.only j x hx
    have himg : ∀ c a, a ∈ seen i → Table.imageNj (g.vertex a) (s.maps i ++ [(g.vertex m, c)]) = Table.imageNj (g.vertex a) (s.maps i) := by
      intro c a ha
      obtain ⟨r, -, -, h⟩ := hi.cls i a ha
      rw [image_append, h]; rfl
    have himgm : ∀ c, Table.imageNj (g.vertex m) (s.maps i ++ [(g.vertex m, c)]) = some c := by
      intro c; rw [image_append, hnone]; simp [Table.imageNj]
    have hcount : ∀ r : N, (seen i ++ [m]).countP (fun a => same (prop a) (prop r)) =
        (seen i).countP (fun a => same (prop a) (prop r)) + if same (prop m) (prop r) = true then 1 else 0 := by
      intro r; rw [List.countP_append]; simp
    rcases hf : (s.collisions i (hash (prop m))).find? (fun r => same (prop m) (prop r)) with _ | r
    · -- a new class
      rw [hf] at hse
      have hv : visit g.vertex prop hash eq i s m = ({ s with
          collisions := Function.update s.collisions i (Function.update (s.collisions i) (hash (prop m)) (s.collisions i (hash (prop m)) ++ [m]))
          maps := Function.update s.maps i (s.maps i ++ [(g.vertex m, m)])
          refs := Function.update s.refs m 0
          clock := (search prop eq m (s.collisions i (hash (prop m))) s.clock).2.1 }, 0) := by
        unfold visit
        simp only
        rw [hse.1, hass]
        simp only [hse.2]
      rw [hv]
      have hnf := List.find?_eq_none.1 hf
      have hfresh : ∀ r ∈ s.collisions i (hash (prop m)), same (prop r) (prop m) = false := by
        intro r hr
        by_contra hc
        exact hnf r hr (hs.symm _ _ (by simpa using hc))
      have hnew : ∀ a ∈ seen i, same (prop a) (prop m) = false := by
        intro a ha
        by_contra hc
        rw [Bool.not_eq_false] at hc
        obtain ⟨r, hr, h1, -⟩ := hi.cls i a ha
        rw [hh _ _ hc] at hr
        exact hnf r hr (hs.trans _ _ _ (hs.symm _ _ hc) h1)
      have hbinm : ∀ h, m ∉ s.collisions i h := fun h hc => hm (hi.bin i h m hc).1
      refine ⟨hnoErr 0 rfl, hhome, hnodup, hre, ?_, ?_, ?_, honly m, ?_⟩
      · intro j h a ha
        by_cases hj : j = i
        · subst hj
          simp only [Function.update_self] at ha ⊢
          by_cases hq : h = hash (prop m)
          · subst hq
            simp only [Function.update_self, List.mem_append, List.mem_singleton] at ha
            rcases ha with ha | rfl
            · exact ⟨List.mem_append_left _ (hi.bin j _ a ha).1, (hi.bin j _ a ha).2⟩
            · exact ⟨by simp, rfl⟩
          · rw [Function.update_of_ne hq] at ha
            exact ⟨List.mem_append_left _ (hi.bin j _ a ha).1, (hi.bin j _ a ha).2⟩
        · simp only [Function.update_of_ne hj] at ha ⊢
          exact hi.bin j h a ha
      · intro j a ha
        by_cases hj : j = i
        · subst hj
          simp only [Function.update_self, List.mem_append, List.mem_singleton] at ha ⊢
          have hsub : ∀ h r, r ∈ s.collisions j h → r ∈ Function.update (s.collisions j) (hash (prop m)) (s.collisions j (hash (prop m)) ++ [m]) h := by
            intro h r hr
            by_cases hq : h = hash (prop m)
            · subst hq; simp [hr]
            · rw [Function.update_of_ne hq]; exact hr
          rcases ha with ha | rfl
          · obtain ⟨r, hr, h1, h2⟩ := hi.cls j a ha
            exact ⟨r, hsub _ _ hr, h1, by rw [himg m a ha, h2]⟩
          · exact ⟨a, by simp, hs.refl _, himgm a⟩
        · simp only [Function.update_of_ne hj] at ha ⊢
          exact hi.cls j a ha
      · intro j h
        by_cases hj : j = i
        · subst hj
          simp only [Function.update_self]
          by_cases hq : h = hash (prop m)
          · subst hq
            simp only [Function.update_self]
            refine List.pairwise_append.2 ⟨hi.apart j _, by simp, fun a ha b hb => ?_⟩
            rw [List.mem_singleton] at hb
            subst hb
            exact hfresh a ha
          · rw [Function.update_of_ne hq]; exact hi.apart j h
        · simp only [Function.update_of_ne hj]; exact hi.apart j h
      · intro j h r hr
        by_cases hj : j = i
        · subst hj
          simp only [Function.update_self] at hr ⊢
          rw [hcount]
          have hcase : (r ∈ s.collisions j h) ∨ r = m := by
            by_cases hq : h = hash (prop m)
            · subst hq
              simp only [Function.update_self, List.mem_append, List.mem_singleton] at hr
              exact hr
            · rw [Function.update_of_ne hq] at hr; exact .inl hr
          by_cases hrm : r = m
          · subst hrm
            simp only [Function.update_self, hs.refl, if_true]
            rw [List.countP_eq_zero.2 (fun a ha => by simp [hnew a ha])]
          · rw [Function.update_of_ne hrm]
            have hr' := hcase.resolve_right hrm
            rw [hi.refs j h r hr']
            have : same (prop m) (prop r) = false := by
              by_contra hc
              rw [Bool.not_eq_false] at hc
              have h1 := (hi.bin j h r hr').2
              have h2 := hh _ _ hc
              exact hnf r (by rw [h2, h1]; exact hr') hc
            simp [this]
        · simp only [Function.update_of_ne hj] at hr ⊢
          have : r ≠ m := by
            rintro rfl
            have h1 := hi.home j r (hi.bin j h r hr).1
            exact hj (h1.symm.trans hlane)
          rw [Function.update_of_ne this]
          exact hi.refs j h r hr
    · -- an old class
      rw [hf] at hse
      have hrb := List.mem_of_find?_eq_some hf
      have hrs : same (prop m) (prop r) = true := by simpa using List.find?_some hf
      have hrseen := (hi.bin i _ r hrb).1
      obtain ⟨r', hr', h1, h2⟩ := hi.cls i r hrseen
      rw [(hi.bin i _ r hrb).2] at hr'
      have hrr : r' = r := by
        by_contra hne
        have hp := hi.apart i (hash (prop m))
        rcases List.pairwise_iff_getElem.1 hp with hp
        obtain ⟨a, ha, e1⟩ := List.mem_iff_getElem.1 hrb
        obtain ⟨b, hb, e2⟩ := List.mem_iff_getElem.1 hr'
        rcases lt_trichotomy a b with h | h | h
        · have := hp a b ha hb h
          rw [e1, e2, h1] at this; cases this
        · subst h; exact hne (e2.symm.trans e1)
        · have := hp b a hb ha h
          rw [e1, e2, hs.symm _ _ h1] at this; cases this
      subst hrr
      have hv : visit g.vertex prop hash eq i s m = ({ s with
          maps := Function.update s.maps i (s.maps i ++ [(g.vertex m, r')])
          refs := Function.update s.refs r' (s.refs r' + 1)
          clock := (search prop eq m (s.collisions i (hash (prop m))) s.clock).2.1 }, 0) := by
        unfold visit
        simp only
        rw [hse.1]
        simp only [h2, hass, hse.2, Option.isSome_none, Bool.false_eq_true, if_false]
      rw [hv]
      refine ⟨hnoErr 0 rfl, hhome, hnodup, hre, ?_, ?_, hi.apart, honly r', ?_⟩
      · intro j h a ha
        have := hi.bin j h a ha
        by_cases hj : j = i
        · subst hj; simp [this]
        · simpa only [Function.update_of_ne hj] using this
      · intro j a ha
        by_cases hj : j = i
        · subst hj
          simp only [Function.update_self, List.mem_append, List.mem_singleton] at ha ⊢
          rcases ha with ha | rfl
          · obtain ⟨q, hq, h3, h4⟩ := hi.cls j a ha
            exact ⟨q, hq, h3, by rw [himg r' a ha, h4]⟩
          · exact ⟨r', hrb, hrs, himgm r'⟩
        · simp only [Function.update_of_ne hj] at ha ⊢
          exact hi.cls j a ha
      · intro j h q hq
        by_cases hj : j = i
        · subst hj
          simp only [Function.update_self]
          rw [hcount]
          by_cases hqr : q = r'
          · subst hqr
            simp only [Function.update_self, hrs, if_true]
            rw [hi.refs j h q hq]
          · rw [Function.update_of_ne hqr, hi.refs j h q hq]
            have : same (prop m) (prop q) = false := by
              by_contra hc
              rw [Bool.not_eq_false] at hc
              have h3 := (hi.bin j h q hq).2
              have h4 := hh _ _ hc
              have hqb : q ∈ s.collisions j (hash (prop m)) := by rw [h4, h3]; exact hq
              have hsame : same (prop q) (prop r') = true := hs.trans _ _ _ (hs.symm _ _ hc) hrs
              have hp := hi.apart j (hash (prop m))
              have hp := List.pairwise_iff_getElem.1 hp
              obtain ⟨a, ha, e1⟩ := List.mem_iff_getElem.1 hqb
              obtain ⟨b, hb, e2⟩ := List.mem_iff_getElem.1 hrb
              rcases lt_trichotomy a b with h | h | h
              · have := hp a b ha hb h
                rw [e1, e2, hsame] at this; cases this
              · subst h; exact hqr (e1.symm.trans e2)
              · have := hp b a hb ha h
                rw [e1, e2, hs.symm _ _ hsame] at this; cases this
            simp [this]
        · simp only [Function.update_of_ne hj]
          have : q ≠ r' := by
            rintro rfl
            have h3 := hi.home j q (hi.bin j h q hq).1
            have h4 := hi.home i q hrseen
            exact hj (h3.symm.trans h4)
          rw [Function.update_of_ne this]
          exact hi.refs j h q hq

/-- The partition found by a job that has ended, and the error code. -/
theorem returns_iff {hn : 0 < n} {s : Mem n N V} {e : Int} : Returns g prop hash eq hn s e ↔
    ∃ x : State n N (Trav.Job n N (Mem n N V)), Net.Reach (task g prop hash eq hn) g.base start x ∧ x.main = .done ∧
      x.g.mem = s ∧ ((∃ i, e = x.g.err i ∧ e ≠ 0) ∨
        ((∀ i, x.g.err i = 0) ∧ e = if x.g.killed ≠ 0 then Build.intKil else 0)) := by
  constructor
  · rintro ⟨x, h1, h2, w, hw, hr⟩
    unfold returned at hr
    rw [Prod.mk.injEq, Option.some.injEq] at hr
    refine ⟨x, h1, h2, hr.1, ?_⟩
    rcases hw with ⟨i, hi, h0⟩ | ⟨h0, hi⟩
    · rw [if_pos h0] at hr; exact .inl ⟨i, hr.2 ▸ hi, hr.2 ▸ h0⟩
    · rw [if_neg (not_not.2 h0)] at hr; exact .inr ⟨hi, hr.2.symm⟩
  · rintro ⟨x, h1, h2, h3, h4⟩
    rcases h4 with ⟨i, hi, h0⟩ | ⟨hi, he⟩
    · exact ⟨x, h1, h2, e, .inl ⟨i, hi, h0⟩, by unfold returned; rw [if_pos h0, h3]⟩
    · exact ⟨x, h1, h2, 0, .inr ⟨rfl, hi⟩, by unfold returned; rw [if_neg (not_not.2 rfl), h3, he]⟩

/-- Where a vertex is found. -/
theorem classOf_eq {seen : Fin n → List N} {err : Fin n → Int} {s : Mem n N V} {hn : 0 < n} (h : Inv g prop hash same hn seen err s)
    (hd : ∀ a b, Reaches (g.next false) g.base a → Reaches (g.next false) g.base b → g.vertex a = g.vertex b → a = b)
    {i : Fin n} {m : N} (hm : m ∈ seen i) : classOf s (g.vertex m) = Table.imageNj (g.vertex m) (s.maps i) := by
  obtain ⟨r, -, -, hr⟩ := h.cls i m hm
  have ho : ∀ j, j ≠ i → Table.imageNj (g.vertex m) (s.maps j) = none := by
    intro j hj
    rcases hq : Table.imageNj (g.vertex m) (s.maps j) with _ | c
    · rfl
    · obtain ⟨m', hm', he⟩ := h.only j _ (image_mem hq)
      have := hd m m' (h.reach i m hm) (h.reach j m' hm') he
      subst this
      exact absurd ((h.home j m hm').symm.trans (h.home i m hm)) hj
  rw [hr]
  unfold classOf
  rcases hf : (List.finRange n).findSome? (fun i => Table.imageNj (g.vertex m) (s.maps i)) with _ | c
  · rw [List.findSome?_eq_none_iff] at hf
    have := hf i (List.mem_finRange i)
    rw [hr] at this
    cases this
  · obtain ⟨j, -, hj⟩ := List.exists_of_findSome?_eq_some hf
    by_cases hji : j = i
    · subst hji; rw [← hj, hr]
    · rw [ho j hji] at hj; cases hj

/-- A sum with one term. -/
theorem lanes_sum (i : Fin n) {f : Fin n → Nat} (hz : ∀ j, j ≠ i → f j = 0) : ((List.finRange n).map f).sum = f i := by
  have : ∀ l : List (Fin n), l.Nodup → (l.map f).sum = if i ∈ l then f i else 0 := by
    intro l hl
    induction l with
    | nil => simp
    | cons j l ih =>
      obtain ⟨h1, h2⟩ := List.nodup_cons.1 hl
      rw [List.map_cons, List.sum_cons, ih h2]
      by_cases hj : i = j
      · subst hj; simp [h1]
      · simp [hz j (Ne.symm hj), hj]
  rw [this _ (List.nodup_finRange n)]
  simp

/-- **C22.** If `cru_partition_of` ends without an error, then every vertex has a class, the classes of two vertices are the same
if and only if their properties are equal, and the size of a class is the number of vertices whose properties are equal to
that of any vertex in it.  Provided the predicate is an equivalence relation, the hash respects it, and vertices are distinct. -/
theorem C22_groups (heq : ∀ t x y, eq t x y = (same x y, 0)) (hs : IsEquality same) (hh : HashRespects hash same) {hn : 0 < n}
    {ms : List N} (hm : Covers (g.next false) g.base ms) (hd : (ms.map g.vertex).Nodup) {s : Mem n N V}
    (hr : Returns g prop hash eq hn s 0) :
    ∀ a ∈ ms, ∃ c, classOf s (g.vertex a) = some c ∧ (∀ b ∈ ms, classOf s (g.vertex b) = some c ↔ same (prop a) (prop b) = true) ∧
      classSize s c = ms.countP fun b => same (prop a) (prop b) := by
  have hd' : ∀ a b, Reaches (g.next false) g.base a → Reaches (g.next false) g.base b → g.vertex a = g.vertex b → a = b :=
    fun a b ha hb he => List.inj_on_of_nodup_map hd ((hm.mem a).2 ha) ((hm.mem b).2 hb) he
  obtain ⟨x, hx, hdone, hmem, hw⟩ := returns_iff.1 hr
  have hk : x.g.killed = 0 := by
    rcases hw with ⟨i, -, h0⟩ | ⟨-, h0⟩
    · exact absurd rfl h0
    · by_contra hc
      rw [if_pos hc] at h0
      exact absurd h0 (by decide)
  have hi := inv_reach heq hs hh (hn := hn) hd' _ (reach_bag hn hx)
  have hp := Trav.done_perm hx hdone hk hi.noErr hm
  subst hmem
  have hlane : ∀ a ∈ ms, a ∈ x.g.seen (Build.lane hn (hash (prop a))) := by
    intro a ha
    obtain ⟨i, -, hi'⟩ := List.mem_flatMap.1 (hp.mem_iff.2 ha)
    rw [hi.home i a hi']; exact hi'
  intro a ha
  obtain ⟨r, hrb, hrs, hri⟩ := hi.cls _ a (hlane a ha)
  have hra := classOf_eq hi hd' (hlane a ha)
  rw [hri] at hra
  refine ⟨r, hra, fun b hb => ?_, ?_⟩
  · obtain ⟨q, hqb, hqs, hqi⟩ := hi.cls _ b (hlane b hb)
    rw [classOf_eq hi hd' (hlane b hb), hqi, Option.some.injEq]
    constructor
    · rintro rfl
      exact hs.trans _ _ _ hrs (hs.symm _ _ hqs)
    · intro hab
      have he := hh _ _ hab
      rw [← he] at hqb
      by_contra hne
      have hsame : same (prop q) (prop r) = true := hs.trans _ _ _ (hs.symm _ _ hqs) (hs.trans _ _ _ (hs.symm _ _ hab) hrs)
      have hp := List.pairwise_iff_getElem.1 (hi.apart (Build.lane hn (hash (prop a))) (hash (prop a)))
      obtain ⟨u, hu, e1⟩ := List.mem_iff_getElem.1 hqb
      obtain ⟨v, hv, e2⟩ := List.mem_iff_getElem.1 hrb
      rcases lt_trichotomy u v with h | h | h
      · have := hp u v hu hv h
        rw [e1, e2, hsame] at this; cases this
      · subst h; exact hne (e1.symm.trans e2)
      · have := hp v u hv hu h
        rw [e1, e2, hs.symm _ _ hsame] at this; cases this
  · unfold classSize
    rw [hi.refs _ _ r hrb]
    have h1 : ∀ b, same (prop b) (prop r) = same (prop a) (prop b) := by
      intro b
      rw [Bool.eq_iff_iff]
      exact ⟨fun h => hs.trans _ _ _ hrs (hs.symm _ _ h), fun h => hs.trans _ _ _ (hs.symm _ _ h) hrs⟩
    simp only [h1]
    rw [← hp.countP_eq, List.countP_flatMap]
    generalize hi0 : Build.lane hn (hash (prop a)) = i
    have hz : ∀ j, j ≠ i → (x.g.seen j).countP (fun b => same (prop a) (prop b)) = 0 := by
      intro j hj
      refine List.countP_eq_zero.2 fun b hb hc => hj ?_
      rw [← hi.home j b hb, ← hh _ _ hc, hi0]
    exact (lanes_sum i hz).symm

/-- **C22, termination.** Classification of a finite graph doesn't go on forever, and can end without an error. -/
theorem C22_terminates (heq : ∀ t x y, eq t x y = (same x y, 0)) (hs : IsEquality same) (hh : HashRespects hash same) (hn : 0 < n)
    {ms : List N} (hm : Covers (g.next false) g.base ms) (hd : (ms.map g.vertex).Nodup) :
    (∀ f : Nat → State n N (Trav.Job n N (Mem n N V)), Net.Reach (task g prop hash eq hn) g.base start (f 0) →
      ¬ ∀ j, step (task g prop hash eq hn) g.base .main (f j) = some (f (j + 1)) ∨
        ∃ i, step (task g prop hash eq hn) g.base (.worker i) (f j) = some (f (j + 1))) ∧
    ∃ s, Returns g prop hash eq hn s 0 := by
  have hd' : ∀ a b, Reaches (g.next false) g.base a → Reaches (g.next false) g.base b → g.vertex a = g.vertex b → a = b :=
    fun a b ha hb he => List.inj_on_of_nodup_map hd ((hm.mem a).2 ha) ((hm.mem b).2 hb) he
  have h := Trav.ends (visit (n := n) g.vertex prop hash eq) (fun m => hash (prop m)) hn (a := g.base)
    ⟨fun _ _ => [], fun _ => [], fun _ => 0, 0⟩ (next := g.next false) (fun m h => (hm.mem m).2 h)
  refine ⟨h.1, ?_⟩
  obtain ⟨x, hx, hdone, hk⟩ := h.2
  refine ⟨x.g.mem, returns_iff.2 ⟨x, hx, hdone, rfl, .inr ⟨?_, by simp [hk]⟩⟩⟩
  exact (inv_reach heq hs hh (hn := hn) hd' _ (reach_bag hn hx)).noErr

/-- **C62.** A partition isn't withheld when there's an error: for any graph, there's an execution in which the operation is
killed, with error `CRU_INTKIL`, and a partition is returned. -/
theorem C62_killed (heq : ∀ t x y, eq t x y = (same x y, 0)) (hs : IsEquality same) (hh : HashRespects hash same) (hn : 0 < n)
    {ms : List N} (hm : Covers (g.next false) g.base ms) (hd : (ms.map g.vertex).Nodup) :
    ∃ s, Returns g prop hash eq hn s Build.intKil := by
  obtain ⟨s, hr⟩ := (C22_terminates heq hs hh hn hm hd).2
  obtain ⟨x, hx, hdone, hmem, hw⟩ := returns_iff.1 hr
  rcases hw with ⟨i, -, h0⟩ | ⟨h0, -⟩
  · exact absurd rfl h0
  · refine ⟨s, returns_iff.2 ⟨{ x with g := { x.g with killed := 1 } }, .step (.env ()) trivial hx rfl, hdone, hmem, .inr ⟨h0, ?_⟩⟩⟩
    simp

/-- A predicate that always fails. -/
def failing : Nat → Nat → Nat → Bool × Int := fun _ _ _ => (false, 7)

/-- **C62.** The same for an error in the user's predicate, and then the partition can lack a vertex. -/
theorem C62_predicate : ∃ s, Returns (n := 1) Count.demo id (fun _ => 0) failing (by decide) s 7 ∧
    (∃ c, classOf s (Count.demo.vertex 0) = some c) ∧ Reaches (Count.demo.next false) Count.demo.base 3 ∧
    classOf s (Count.demo.vertex 3) = none := by
  refine ⟨_, returns_iff.2 ⟨greedy _ 0 60 (init start), greedy_reach _ _ Reach.init, by rfl, rfl, .inl ⟨0, by rfl, by decide⟩⟩, ⟨0, by rfl⟩,
    (Count.demo_wf.2 3).1 (by decide), by rfl⟩

/-! Demonstration: the vertices of the demonstration graph by parity. -/

example : ∃ s, Returns (n := 3) Count.demo (fun m => m % 2) id (fun _ x y => (x == y, 0)) (by decide) s 0 ∧
    ∃ c d, classOf s 0 = some c ∧ classOf s 2 = some c ∧ classOf s 1 = some d ∧ c ≠ d ∧ classSize s c = 2 := by
  have hs : IsEquality (fun x y : Nat => x == y) := ⟨by simp, by simp, by simp⟩
  have hh : HashRespects id (fun x y : Nat => x == y) := by intro a b h; simpa using h
  have hm : Covers (Count.demo.next false) Count.demo.base [0, 1, 2, 3] := ⟨by decide, Count.demo_wf.2⟩
  have hd : ([0, 1, 2, 3].map Count.demo.vertex).Nodup := by decide
  obtain ⟨s, hr⟩ := (C22_terminates (prop := fun m => m % 2) (fun _ _ _ => rfl) hs hh (show 0 < 3 by decide) hm hd).2
  have h := C22_groups (fun _ _ _ => rfl) hs hh hm hd hr
  obtain ⟨c, h1, h2, h3⟩ := h 0 (by decide)
  obtain ⟨d, h4, h5, h6⟩ := h 1 (by decide)
  refine ⟨s, hr, c, d, h1, (h2 2 (by decide)).2 (by decide), h4, ?_, by rw [h3]; decide⟩
  rintro rfl
  have := (h2 1 (by decide)).1 h4
  revert this
  decide

end Cru.Classify
