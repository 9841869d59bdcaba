import Verif.Spec.PoolMutate
import Verif.Proofs.Pool

/-!
# Lemmas about mutation in terms of memory
-/

namespace Cru.Pool

variable {N E X L : Type} [DecidableEq N] [DecidableEq E] [DecidableEq L] [Zero X] [One X] [DecidableEq X]

variable (o : Ops X) (G : Shape N E) (m₀ : Loc N E → X) (idx : Loc N E → L) (own : N → Nat)

theorem view_congr {s : Sight} {l l' w w' : E → X} {es : List E} (h1 : s ≠ .nothing → ∀ e ∈ es, l e = l' e)
    (h2 : s = .all → ∀ e ∈ es, w e = w' e) : view s l w es = view s l' w' es := by
  cases s with
  | nothing => rfl
  | labels => exact List.map_congr_left fun e he => by rw [h1 (by simp) e he]
  | all => exact List.map_congr_left fun e he => by rw [h1 (by simp) e he, h2 rfl e he]

theorem label_none (h : o.eop = none) (e : E) (v : X) : label o G m₀ e v = m₀ (.near e) := by
  unfold label; rw [h]

variable {o G m₀} in
/-- What a vertex becomes is determined. -/
theorem final_unique {n : N} {v v' : X} (h : Final o G m₀ n v) (h' : Final o G m₀ n v') : v = v' := by
  induction h generalizing v' with
  | keep h1 =>
    cases h' with
    | keep _ => rfl
    | new f w h2 _ => rw [h1] at h2; cases h2
  | new f w h1 h2 ih =>
    cases h' with
    | keep h3 => rw [h1] at h3; cases h3
    | new f' w' h3 h4 =>
    rw [h1] at h3
    cases h3
    congr 1
    refine view_congr (fun hs e he => ?_) fun hs e he => ih (.inl hs) e he (h4 (.inl hs) e he)
    by_cases hn : o.eop = none
    · rw [label_none o G m₀ hn, label_none o G m₀ hn]
    · have hu : o.before = .all ∨ (o.eop.isSome = true ∧ o.before ≠ .nothing) := .inr ⟨Option.isSome_iff_ne_none.2 hn, hs⟩
      rw [ih hu e he (h4 hu e he)]

/-- Whether mutation of vertices has to wait for that of prerequisites. -/
def Ops.Waits : Prop := o.ordered = true ∧ o.vop.isSome = true ∧ (o.eop.isSome = true ∨ o.before ≠ .nothing)

/-- What a worker is at: nothing in particular, examining the prerequisites of a node, having read one of them with the lock or about to do so,
being prepared to mutate a node, being in its critical section with known values in memory, and leaving it.  In each case it has a list of
nodes not started yet. -/
inductive Phase (N E X : Type) where
  | idle (U : List N)
  | claim (n : N) (S : List N) (U : List N)
  | look (n : N) (S : List N) (p : N) (U : List N)
  | seen (n : N) (S : List N) (p : N) (U : List N)
  | ready (n : N) (U : List N)
  | crit (n : N) (v : X) (near far : E → X) (U : List N)
  | close (n : N) (U : List N)

/-- Changes of mind. -/
inductive Ghost : Phase N E X → Phase N E X → Prop
  | refl {γ} : Ghost γ γ
  | next {n U γ} : Ghost (.claim n [] U) γ → Ghost (.idle (n :: U)) γ
  | quit {n S U γ} : Ghost (.idle U) γ → Ghost (.claim n S U) γ
  | go {n S U γ} : (o.Waits → ∀ e ∈ G.pre n, G.src e ∈ S) → Ghost (.ready n U) γ → Ghost (.claim n S U) γ

/-- What worker `t` may do. -/
inductive Safe (t : Nat) : Phase N E X → Code (Loc N E) X L → Prop
  | done {γ U} : Ghost o G γ (.idle U) → Safe t γ .done
  | mark {γ n U k} : Ghost o G γ (.idle U) → own n = t → n ∉ U → (∀ x, x ≠ 0 → Safe t (.idle U) (k x)) → Safe t (.claim n [] U) (k 0) →
      Safe t γ (.load (.marked n) k)
  | rdlock {γ n S p U k} : Ghost o G γ (.claim n S U) → Safe t (.look n S p U) k → Safe t γ (.rdlock (idx (.marked p)) k)
  | look {n S p U k} : (∀ x, x ≠ 0 → Safe t (.seen n (p :: S) p U) (k x)) → Safe t (.seen n S p U) (k 0) →
      Safe t (.look n S p U) (.load (.marked p) k)
  | seen {n S p U k} : Safe t (.claim n S U) k → Safe t (.seen n S p U) (.unlock (idx (.marked p)) k)
  | vertex {γ n U k} : Ghost o G γ (.ready n U) → Safe t (.ready n U) (k (m₀ (.vertex n))) → Safe t γ (.load (.vertex n) k)
  | far {γ n U e k} : Ghost o G γ (.ready n U) → o.vop.isSome = true → o.before ≠ .nothing → e ∈ G.pre n →
      (∀ x, (o.eop = none ∧ x = m₀ (.near e)) ∨ (∃ w, Final o G m₀ (G.src e) w ∧ x = label o G m₀ e w) → Safe t (.ready n U) (k x)) →
      Safe t γ (.load (.far e) k)
  | before {γ n U e k} : Ghost o G γ (.ready n U) → o.vop.isSome = true → o.before = .all → e ∈ G.pre n →
      (∀ x, Final o G m₀ (G.src e) x → Safe t (.ready n U) (k x)) → Safe t γ (.load (.vertex (G.src e)) k)
  | near {γ n U e k} : Ghost o G γ (.ready n U) → e ∈ G.dep n → Safe t (.ready n U) (k (m₀ (.near e))) → Safe t γ (.load (.near e) k)
  | after {γ n U e k} : Ghost o G γ (.ready n U) → o.vop.isSome = true → o.after = .all → e ∈ G.dep n →
      Safe t (.ready n U) (k (m₀ (.vertex (G.dst e)))) → Safe t γ (.load (.vertex (G.dst e)) k)
  | wrlock {γ n U k} : Ghost o G γ (.ready n U) →
      Safe t (.crit n (m₀ (.vertex n)) (fun e => m₀ (.near e)) (fun e => m₀ (.near e)) U) k → Safe t γ (.wrlock (idx (.marked n)) k)
  | cVertex {n v a b U k} : Safe t (.crit n v a b U) (k v) → Safe t (.crit n v a b U) (.load (.vertex n) k)
  | cNear {n v a b U e k} : e ∈ G.dep n → Safe t (.crit n v a b U) (k (a e)) → Safe t (.crit n v a b U) (.load (.near e) k)
  | cAfter {n v a b U e k} : o.eop.isSome = true → e ∈ G.dep n → Safe t (.crit n v a b U) (k (m₀ (.vertex (G.dst e)))) →
      Safe t (.crit n v a b U) (.load (.vertex (G.dst e)) k)
  | sVertex {n v a b U x k} : o.vop.isSome = true → Safe t (.crit n x a b U) k → Safe t (.crit n v a b U) (.store (.vertex n) x k)
  | sNear {n v a b U e x k} : o.eop.isSome = true → e ∈ G.dep n → Safe t (.crit n v (put a e x) b U) k →
      Safe t (.crit n v a b U) (.store (.near e) x k)
  | sFar {n v a b U e x k} : o.eop.isSome = true → e ∈ G.dep n → Safe t (.crit n v a (put b e x) U) k →
      Safe t (.crit n v a b U) (.store (.far e) x k)
  | sMark {n v a b U x k} : x ≠ 0 → Final o G m₀ n v → (∀ e ∈ G.dep n, a e = label o G m₀ e v ∧ b e = label o G m₀ e v) →
      Safe t (.close n U) k → Safe t (.crit n v a b U) (.store (.marked n) x k)
  | close {n U k} : Safe t (.idle U) k → Safe t (.close n U) (.unlock (idx (.marked n)) k)

/-! ## Workers are safe -/

variable {o G m₀ idx own} {t : Nat}

theorem safe_look_after {n : N} {U : List N} (hv : o.vop.isSome = true) (es : List E) (hs : ∀ e ∈ es, e ∈ G.dep n)
    {k : List (X × X) → Code (Loc N E) X L}
    (h : Safe o G m₀ idx own t (.ready n U) (k (view o.after (fun e => m₀ (.near e)) (fun e => m₀ (.vertex (G.dst e))) es))) :
    Safe o G m₀ idx own t (.ready n U) (look o.after .near G.dst es k) := by
  induction es generalizing k with
  | nil =>
    cases ha : o.after <;> rw [ha] at h <;> exact h
  | cons e es ih =>
    have he := hs e List.mem_cons_self
    unfold look
    cases ha : o.after with
    | nothing => rw [ha] at h; exact h
    | labels =>
      dsimp only
      refine .near .refl he ?_
      rw [← ha]
      refine ih (fun e' h' => hs e' (List.mem_cons_of_mem _ h')) ?_
      rw [ha] at h ⊢
      exact h
    | all =>
      dsimp only
      refine .near .refl he (.after .refl hv ha he ?_)
      rw [← ha]
      refine ih (fun e' h' => hs e' (List.mem_cons_of_mem _ h')) ?_
      rw [ha] at h ⊢
      exact h

/-- What the fold over the edges on the side of prerequisites may get. -/
def Seen (o : Ops X) (G : Shape N E) (m₀ : Loc N E → X) (es : List E) (r : List (X × X)) : Prop :=
  ∃ w : E → X, (o.before = .all ∨ (o.eop.isSome = true ∧ o.before ≠ .nothing) → ∀ e ∈ es, Final o G m₀ (G.src e) (w e)) ∧
    r = view o.before (fun e => label o G m₀ e (w e)) w es

theorem seen_cons {e : E} {es : List E} {r : List (X × X)} {x y : X} (hb : o.before ≠ .nothing)
    (hx : (o.eop = none ∧ x = m₀ (.near e)) ∨ ∃ w, Final o G m₀ (G.src e) w ∧ x = label o G m₀ e w)
    (hy : (o.before = .labels ∧ y = 0) ∨ (o.before = .all ∧ Final o G m₀ (G.src e) y)) (he : e ∉ es) (hr : Seen o G m₀ es r) :
    Seen o G m₀ (e :: es) ((x, y) :: r) := by
  obtain ⟨w, h1, h2⟩ := hr
  -- the value for the new edge
  obtain ⟨z, hz1, hz2, hz3⟩ : ∃ z, (o.before = .all ∨ o.eop.isSome = true → Final o G m₀ (G.src e) z) ∧ x = label o G m₀ e z ∧
      (o.before = .all → y = z) := by
    rcases hx with ⟨hn, rfl⟩ | ⟨z, hz, rfl⟩
    · refine ⟨y, fun h => ?_, (label_none o G m₀ hn e y).symm, fun _ => rfl⟩
      rcases hy with ⟨h', -⟩ | ⟨-, h'⟩
      · rcases h with h | h
        · rw [h'] at h; cases h
        · rw [hn] at h; cases h
      · exact h'
    · refine ⟨z, fun _ => hz, rfl, fun ha => ?_⟩
      rcases hy with ⟨h', -⟩ | ⟨-, h'⟩
      · rw [ha] at h'; cases h'
      · exact final_unique h' hz
  have hne : ∀ e' ∈ es, put w e z e' = w e' := fun e' h' => put_other _ _ (by rintro rfl; exact he h')
  refine ⟨put w e z, fun hu e' h' => ?_, ?_⟩
  · rcases List.mem_cons.1 h' with rfl | h'
    · rw [put_same]
      exact hz1 (hu.imp_right And.left)
    · rw [hne e' h']
      exact h1 hu e' h'
  · have ht : view o.before (fun e' => label o G m₀ e' (put w e z e')) (put w e z) es = r := by
      rw [h2]
      exact view_congr (fun _ e' h' => by rw [hne e' h']) fun _ e' h' => hne e' h'
    rcases hy with ⟨hb', rfl⟩ | ⟨hb', -⟩
    · rw [hb'] at ht ⊢
      rw [← ht, hz2]
      unfold view
      dsimp only
      rw [List.map_cons, put_same]
    · rw [hb'] at ht ⊢
      rw [← ht, hz2, hz3 hb']
      unfold view
      dsimp only
      rw [List.map_cons, put_same]

theorem safe_look_before {n : N} {U : List N} (hv : o.vop.isSome = true) (es : List E) (hs : ∀ e ∈ es, e ∈ G.pre n) (hd : es.Nodup)
    {k : List (X × X) → Code (Loc N E) X L} (h : ∀ r, Seen o G m₀ es r → Safe o G m₀ idx own t (.ready n U) (k r)) :
    Safe o G m₀ idx own t (.ready n U) (look o.before .far G.src es k) := by
  induction es generalizing k with
  | nil => exact h [] ⟨fun _ => 0, fun _ e he => (by cases he), by cases o.before <;> rfl⟩
  | cons e es ih =>
    have he := hs e List.mem_cons_self
    have hd' := List.nodup_cons.1 hd
    unfold look
    cases hb : o.before with
    | nothing =>
      refine h [] ⟨fun _ => 0, fun hu => ?_, by rw [hb]; rfl⟩
      rcases hu with hu | hu
      · rw [hb] at hu; cases hu
      · exact absurd hb hu.2
    | labels =>
      dsimp only
      refine .far .refl hv (by rw [hb]; simp) he fun x hx => ?_
      rw [← hb]
      exact ih (fun e' h' => hs e' (List.mem_cons_of_mem _ h')) hd'.2 fun r hr =>
        h _ (seen_cons (by rw [hb]; simp) hx (.inl ⟨hb, rfl⟩) hd'.1 hr)
    | all =>
      dsimp only
      refine .far .refl hv (by rw [hb]; simp) he fun x hx => .before .refl hv hb he fun y hy => ?_
      rw [← hb]
      exact ih (fun e' h' => hs e' (List.mem_cons_of_mem _ h')) hd'.2 fun r hr =>
        h _ (seen_cons (by rw [hb]; simp) hx (.inr ⟨hb, hy⟩) hd'.1 hr)

theorem safe_permeate {n : N} {U : List N} {v y : X} {b : E → X} {g : X → X → X → X} (hg : o.eop = some g) (es : List E)
    (hs : ∀ e ∈ es, e ∈ G.dep n) (hd : es.Nodup) (a : E → X) (ha : ∀ e ∈ es, a e = m₀ (.near e)) {k : Code (Loc N E) X L}
    (h : ∀ a', (∀ e ∈ es, a' e = label o G m₀ e y) → (∀ e, e ∉ es → a' e = a e) → Safe o G m₀ idx own t (.crit n v a' b U) k) :
    Safe o G m₀ idx own t (.crit n v a b U) (permeate G (fun v x w k => k (g v x w)) y es k) := by
  induction es generalizing a with
  | nil => exact h a (fun e he => (by cases he)) fun _ _ => rfl
  | cons e es ih =>
    have he := hs e List.mem_cons_self
    have hd' := List.nodup_cons.1 hd
    have hsome : o.eop.isSome = true := by rw [hg]; rfl
    unfold permeate
    refine .cNear he (.cAfter hsome he (.sNear hsome he ?_))
    refine ih (fun e' h' => hs e' (List.mem_cons_of_mem _ h')) hd'.2 _ (fun e' h' => ?_) fun a' h1 h2 => h a' (fun e' h' => ?_) fun e' h' => ?_
    · rw [put_other _ _ (by rintro rfl; exact hd'.1 h')]
      exact ha e' (List.mem_cons_of_mem _ h')
    · rcases List.mem_cons.1 h' with rfl | h'
      · rw [h2 _ hd'.1, put_same, ha _ List.mem_cons_self]
        unfold label
        rw [hg]
      · exact h1 e' h'
    · rw [h2 e' fun h3 => h' (List.mem_cons_of_mem _ h3), put_other _ _ (by rintro rfl; exact h' List.mem_cons_self)]

theorem safe_reflect {n : N} {U : List N} {v : X} {a : E → X} (hsome : o.eop.isSome = true) (es : List E) (hs : ∀ e ∈ es, e ∈ G.dep n)
    (b : E → X) {k : Code (Loc N E) X L}
    (h : ∀ b', (∀ e ∈ es, b' e = a e) → (∀ e, e ∉ es → b' e = b e) → Safe o G m₀ idx own t (.crit n v a b' U) k) :
    Safe o G m₀ idx own t (.crit n v a b U) (reflect es k) := by
  induction es generalizing b with
  | nil => exact h b (fun e he => (by cases he)) fun _ _ => rfl
  | cons e es ih =>
    have he := hs e List.mem_cons_self
    unfold reflect
    refine .cNear he (.sFar hsome he ?_)
    refine ih (fun e' h' => hs e' (List.mem_cons_of_mem _ h')) _ fun b' h1 h2 => h b' (fun e' h' => ?_) fun e' h' => ?_
    · by_cases hm : e' ∈ es
      · exact h1 e' hm
      · rcases List.mem_cons.1 h' with rfl | h'
        · rw [h2 _ hm, put_same]
        · exact absurd h' hm
    · rw [h2 e' fun h3 => h' (List.mem_cons_of_mem _ h3), put_other _ _ (by rintro rfl; exact h' List.mem_cons_self)]

variable [NeZero (1 : X)]

theorem safe_inside (hG : G.Proper) {n : N} {U : List N} {v : Option X} (hv : v = none ↔ o.vop = none)
    (hf : Final o G m₀ n (v.getD (m₀ (.vertex n)))) {k : Code (Loc N E) X L} (h : Safe o G m₀ idx own t (.idle U) k)
    {γ : Phase N E X} (hγ : Ghost o G γ (.ready n U)) : Safe o G m₀ idx own t γ (inside idx G o.kernel n v k) := by
  unfold inside
  refine .wrlock hγ ?_
  -- what's left after the labels
  have rest : ∀ a b : E → X, (∀ e ∈ G.dep n, a e = label o G m₀ e (v.getD (m₀ (.vertex n))) ∧ b e = label o G m₀ e (v.getD (m₀ (.vertex n)))) →
      Safe o G m₀ idx own t (.crit n (m₀ (.vertex n)) a b U)
        (match (generalizing := false) v with
        | none => unlockForReading idx (.marked n) 1 k
        | some y => .store (.vertex n) y (unlockForReading idx (.marked n) 1 k)) := by
    intro a b hab
    cases v with
    | none => exact .sMark (NeZero.ne 1) hf hab (.close h)
    | some y =>
      refine .sVertex ?_ (.sMark (NeZero.ne 1) hf hab (.close h))
      rw [Option.isSome_iff_ne_none]
      exact fun h' => absurd (hv.2 h') (by simp)
  cases he : o.eop with
  | none =>
    rw [show (o.kernel : Kernel (Loc N E) X L).eop = none by unfold Ops.kernel; rw [he]; rfl]
    dsimp only
    refine rest _ _ fun e _ => ?_
    rw [label_none o G m₀ he]
    exact ⟨rfl, rfl⟩
  | some g =>
    rw [show (o.kernel : Kernel (Loc N E) X L).eop = some fun v x w k => k (g v x w) by unfold Ops.kernel; rw [he]; rfl]
    have hsome : o.eop.isSome = true := by rw [he]; rfl
    have both : ∀ y, y = v.getD (m₀ (.vertex n)) → Safe o G m₀ idx own t (.crit n (m₀ (.vertex n)) (fun e => m₀ (.near e)) (fun e => m₀ (.near e)) U)
        (permeate G (fun v x w k => k (g v x w)) y (G.dep n) (reflect (G.dep n)
          (match (generalizing := false) v with
          | none => unlockForReading idx (.marked n) 1 k
          | some y => .store (.vertex n) y (unlockForReading idx (.marked n) 1 k)))) := by
      rintro y rfl
      refine safe_permeate he _ (fun _ h => h) (hG.once n).2 _ (fun _ _ => rfl) fun a h1 _ => safe_reflect hsome _ (fun _ h => h) _ fun b h2 _ => ?_
      exact rest a b fun e he => ⟨h1 e he, (h2 e he).trans (h1 e he)⟩
    cases v with
    | none => exact .cVertex (both _ rfl)
    | some y => exact both _ rfl

theorem safe_mutate (hG : G.Proper) {n : N} {U : List N} {k : Code (Loc N E) X L} (h : Safe o G m₀ idx own t (.idle U) k)
    {γ : Phase N E X} (hγ : Ghost o G γ (.ready n U)) : Safe o G m₀ idx own t γ (mutate idx G o.kernel n k) := by
  unfold mutate
  cases hv : o.vop with
  | none =>
    rw [show (o.kernel : Kernel (Loc N E) X L).vop = none by unfold Ops.kernel; rw [hv]; rfl]
    exact safe_inside hG (by simp [hv]) (.keep hv) h hγ
  | some f =>
    rw [show (o.kernel : Kernel (Loc N E) X L).vop = some fun v i w k => k (f v i w) by unfold Ops.kernel; rw [hv]; rfl]
    have hsome : o.vop.isSome = true := by rw [hv]; rfl
    refine .vertex hγ (safe_look_before hsome _ (fun _ h => h) (hG.once n).1 fun r hr => safe_look_after hsome _ (fun _ h => h) ?_)
    obtain ⟨w, h1, rfl⟩ := hr
    refine safe_inside hG (by simp [hv]) ?_ h .refl
    exact .new f w hv h1

theorem safe_quit {n : N} {S U : List N} {c : Code (Loc N E) X L} (h : Safe o G m₀ idx own t (.idle U) c) :
    Safe o G m₀ idx own t (.claim n S U) c := by
  cases h with
  | done h => exact .done (.quit h)
  | mark h h1 h2 h3 h4 => exact .mark (.quit h) h1 h2 h3 h4
  | rdlock h h1 => exact .rdlock (.quit h) h1
  | vertex h h1 => exact .vertex (.quit h) h1
  | far h h1 h2 h3 h4 => exact .far (.quit h) h1 h2 h3 h4
  | before h h1 h2 h3 h4 => exact .before (.quit h) h1 h2 h3 h4
  | near h h1 h2 => exact .near (.quit h) h1 h2
  | after h h1 h2 h3 h4 => exact .after (.quit h) h1 h2 h3 h4
  | wrlock h h1 => exact .wrlock (.quit h) h1

theorem safe_quiescent {n : N} {U : List N} (es : List E) {S : List N} {k : Bool → Code (Loc N E) X L}
    (h1 : ∀ S' : List N, (∀ p ∈ S, p ∈ S') → (∀ e ∈ es, G.src e ∈ S') → Safe o G m₀ idx own t (.claim n S' U) (k true))
    (h2 : ∀ S' : List N, Safe o G m₀ idx own t (.claim n S' U) (k false)) :
    Safe o G m₀ idx own t (.claim n S U) (quiescent idx G es k) := by
  induction es generalizing S with
  | nil => exact h1 S (fun _ h => h) fun e he => (by cases he)
  | cons e es ih =>
    refine .rdlock .refl (.look (fun x hx => .seen ?_) (.seen ?_)) <;> dsimp only
    · rw [if_neg hx]
      refine ih fun S' h3 h4 => h1 S' (fun p hp => h3 p (List.mem_cons_of_mem _ hp)) fun e' he' => ?_
      rcases List.mem_cons.1 he' with rfl | he'
      · exact h3 _ List.mem_cons_self
      · exact h4 e' he'
    · rw [if_pos rfl]
      exact h2 S

theorem safe_arrivals (hG : G.Proper) (ns : List N) (hn : ∀ n ∈ ns, own n = t) :
    Safe o G m₀ idx own t (.idle []) (arrivals idx G o.kernel ns) := by
  induction ns with
  | nil => exact .done .refl
  | cons n ns ih =>
    have ih' := ih fun n' h => hn n' (List.mem_cons_of_mem _ h)
    unfold arrivals
    refine .mark .refl (hn n List.mem_cons_self) (by simp) (fun x hx => ?_) ?_
    · rw [if_neg hx]; exact ih'
    · rw [if_pos rfl]
      refine safe_quiescent _ (fun S _ h2 => ?_) fun S => ?_
      · rw [if_pos rfl]
        refine safe_mutate hG ih' (.go (fun hw e he => h2 e ?_) .refl)
        rw [show (o.kernel : Kernel (Loc N E) X L).ordered = o.ordered from rfl, if_pos hw.1]
        exact he
      · rw [if_neg (by simp)]
        exact safe_quit ih'

theorem safe_startAll (hG : G.Proper) (ss : List N) (hs : ∀ n ∈ ss, early G (o.kernel : Kernel (Loc N E) X L) n = true) {k : Code (Loc N E) X L}
    (h : Safe o G m₀ idx own t (.idle []) k) : Safe o G m₀ idx own t (.idle ss) (startAll idx G o.kernel ss k) := by
  induction ss with
  | nil => exact h
  | cons n ss ih =>
    refine safe_mutate hG (ih fun n' h' => hs n' (List.mem_cons_of_mem _ h')) (.next (.go (fun hw e he => ?_) .refl))
    have hn := hs n List.mem_cons_self
    exfalso
    obtain ⟨h1, h2, h3⟩ := hw
    obtain ⟨f, hf⟩ := Option.isSome_iff_exists.1 h2
    have hl : (G.pre n).isEmpty = false := by
      cases hp : G.pre n with
      | nil => rw [hp] at he; cases he
      | cons a as => rfl
    have hb : (o.eop.isSome = true) ∨ decide (o.before = .nothing) = false := h3.imp_right fun h => decide_eq_false h
    unfold early Ops.kernel at hn
    simp only [h1, hf, hl] at hn
    rcases hb with hb | hb
    · simp [hb] at hn
    · simp [hb] at hn

end Cru.Pool
