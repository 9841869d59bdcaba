import Verif.Spec.PostponeAcc
import Verif.Proofs.DedupAcc
import Verif.Proofs.Rover
import Verif.Proofs.Trav
import Verif.Proofs.Duplex

/-! # Accounting for the postponement of edges -/

namespace Cru.PostponeAcc

open Net Fold
open MergeAcc (Bal)
open Request (Env alloc edge destroy_frame alloc_bal edge_bal edge_cases Exact)
open SpawnAcc (Verdict applied_bal)
open SplitAcc (passed unsent passed_bal)
open DedupAcc (Edge labels labels_nil labels_cons labels_append freeEdges dedup)

variable {n : Nat} {N V : Type} {c : Env}

/-- A packet holds the label of an edge to be attached. -/
def Pkt.held (c : Env) : Pkt N V → Multiset (Nat × Nat)
  | .attach _ e => owned c.eFree e.label
  | _ => 0

def sent (c : Env) (ps : Multiset (Pkt N V)) : Multiset (Nat × Nat) := (ps.map (Pkt.held c)).sum

@[simp] theorem sent_zero (c : Env) : sent c (0 : Multiset (Pkt N V)) = 0 := rfl
@[simp] theorem sent_cons (c : Env) (p : Pkt N V) (ps : Multiset (Pkt N V)) : sent c (p ::ₘ ps) = p.held c + sent c ps := by simp [sent]
@[simp] theorem sent_add (c : Env) (ps qs : Multiset (Pkt N V)) : sent c (ps + qs) = sent c ps + sent c qs := by simp [sent]

theorem sent_visits (c : Env) (l : List N) : sent c ((l.map Pkt.visit : List (Pkt N V)) : Multiset (Pkt N V)) = 0 := by
  induction l with
  | nil => rfl
  | cons m l ih =>
    rw [List.map_cons, ← Multiset.cons_coe, sent_cons, ih]; rfl

theorem sum_at [Fintype N] [DecidableEq N] {α : Type} (f g : N → Multiset α) (q : N) (h : ∀ t, t ≠ q → f t = g t) :
    ∃ r, ∑ t, f t = f q + r ∧ ∑ t, g t = g q + r := by
  have key : ∀ k : N → Multiset α, ∑ t, k t = k q + ∑ t ∈ Finset.univ.erase q, k t := fun k => (Finset.add_sum_erase _ k (by simp)).symm
  refine ⟨_, key f, ?_⟩
  rw [key g]
  congr 1
  exact Finset.sum_congr rfl fun t ht => (h t (Finset.ne_of_mem_erase ht)).symm

/-! ## Sending -/

theorem scatter_bal (c : Env) (res : Nat → Bool) (es : List (Edge N V)) (w : World) (x : Multiset (Nat × Nat)) :
    Bal w (scatter c res es w).2 x x := by
  induction es generalizing w with
  | nil => exact Bal.refl w x
  | cons e es ih =>
    unfold scatter
    split_ifs
    · exact alloc_bal c w x
    · exact (alloc_bal c w x).trans (ih _)

theorem alloc_sticky {w : World} (h : w.err ≠ 0) : (alloc c w).err = w.err := by simp [alloc, World.raise, h]

theorem scatter_sticky (res : Nat → Bool) (es : List (Edge N V)) {w : World} (h : w.err ≠ 0) : (scatter c res es w).2.err = w.err := by
  induction es generalizing w with
  | nil => rfl
  | cons e es ih =>
    unfold scatter
    split_ifs
    · exact alloc_sticky h
    · rw [ih (by rw [alloc_sticky h]; exact h), alloc_sticky h]

/-- Without an error, packets have been sent to all. -/
theorem scatter_all (c : Env) (res : Nat → Bool) (es : List (Edge N V)) (w : World) (h : (scatter c res es w).2.err = 0) :
    (scatter c res es w).1 = es.map Edge.dst := by
  induction es generalizing w with
  | nil => rfl
  | cons e es ih =>
    unfold scatter at h ⊢
    split_ifs at h ⊢ with hu
    · have : (alloc c w).err ≠ 0 := by
        unfold unsent at hu
        simp only [alloc, World.raise, hu.1]
        split_ifs <;> simp_all
      exact absurd h this
    · simp [ih _ h]

theorem bipartition_bal [DecidableEq N] (c : Env) (o : Ops V) (m : N) (es st mv : List (Edge N V)) (w : World) (x : Multiset (Nat × Nat)) :
    Bal w (bipartition o m es st mv w).world (labels c es + labels c st + labels c mv + x)
      (labels c (bipartition o m es st mv w).left + labels c (bipartition o m es st mv w).still + labels c (bipartition o m es st mv w).movable + x) := by
  induction es generalizing st mv w x with
  | nil => exact Bal.refl w _
  | cons e es ih =>
    unfold bipartition
    split_ifs
    · exact Bal.refl w _
    · refine (ih st mv w (owned c.eFree e.label + x)).cast ?_ ?_
      · simp; abel
      · simp; abel
    · dsimp only
      split_ifs
      · refine (passed_bal o.postponable w _).trans ((ih _ _ _ x).cast ?_ rfl)
        simp; abel
      · refine (passed_bal o.postponable w _).trans ((ih _ _ _ x).cast ?_ rfl)
        simp; abel

theorem bipartition_mem [DecidableEq N] (o : Ops V) (m : N) (es st mv : List (Edge N V)) (w : World) (e : Edge N V)
    (h : e ∈ es ∨ e ∈ st ∨ e ∈ mv) : e ∈ (bipartition o m es st mv w).left ∨ e ∈ (bipartition o m es st mv w).still ∨
      e ∈ (bipartition o m es st mv w).movable := by
  induction es generalizing st mv w with
  | nil => simpa [bipartition] using h
  | cons a es ih =>
    unfold bipartition
    split_ifs
    · exact h
    · dsimp only
      have := ih st mv w
      simp only [List.mem_cons] at h ⊢
      rcases h with (h | h) | h
      · exact .inl (.inl h)
      · rcases this (.inl h) with h | h
        · exact .inl (.inr h)
        · exact .inr h
      · rcases this (.inr h) with h | h
        · exact .inl (.inr h)
        · exact .inr h
    · dsimp only
      split_ifs
      · refine ih _ _ _ ?_
        simp only [List.mem_cons] at h ⊢
        tauto
      · refine ih _ _ _ ?_
        simp only [List.mem_cons] at h ⊢
        tauto

theorem postponed_bal (c : Env) (o : Ops V) (res : Nat → Bool) (l : Edge N V) (es : List (Edge N V)) (w : World) (x : Multiset (Nat × Nat)) :
    Bal w (postponed c o res l es w).2 x (sent c ((postponed c o res l es w).1 : Multiset (Pkt N V)) + x) := by
  induction es generalizing w x with
  | nil => exact (Bal.refl w x).cast rfl (by simp [postponed])
  | cons e es ih =>
    unfold postponed
    by_cases hw : w.err ≠ 0
    · rw [if_pos hw]; exact (Bal.refl w x).cast rfl (by simp)
    · rw [if_neg hw]
      dsimp only
      have h1 := passed_bal o.bpred w
      generalize passed o.bpred w = p at h1 ⊢
      by_cases hp : p.1 = false
      · rw [if_pos hp]; exact (h1 x).trans (ih _ x)
      · rw [if_neg hp]
        have h2 := fun x => (h1 x).trans (applied_bal o.bop c.eFree p.2 x)
        generalize applied o.bop c.eFree p.2 = a at h2 ⊢
        have h3 := fun x => (h2 x).trans ((edge_bal c a.1 none [] a.2 x).cast (by simp [owned_none]) rfl)
        have h4 := edge_cases c a.1 none [] a.2
        generalize edge c a.1 none [] a.2 = g at h3 h4 ⊢
        obtain ⟨gs, w1⟩ := g
        simp only at h4
        rcases h4 with rfl | rfl
        · dsimp only
          exact ((h3 x).cast rfl (by simp)).trans (ih w1 x)
        · dsimp only
          split_ifs
          · refine (h3 x).trans ((alloc_bal c w1 _).trans (((destroy_frame c c.eFree a.1 _ x).cast ?_ rfl).trans (ih _ x)))
            simp [Request.Edge.held, owned_none]
          · refine (h3 x).trans ((alloc_bal c w1 _).trans ((ih _ (owned c.eFree a.1 + x)).cast ?_ ?_))
            · simp [Request.Edge.held, owned_none]
            · rw [← Multiset.cons_coe, sent_cons]
              simp [Request.Edge.held, owned_none, Pkt.held]
              abel

theorem postponed_link (c : Env) (o : Ops V) (res : Nat → Bool) (l : Edge N V) (es : List (Edge N V)) (w : World)
    (h : (postponed c o res l es w).1 ≠ []) : ∃ e ∈ es, ∃ g : Edge N V, Pkt.attach e.dst g ∈ (postponed c o res l es w).1 ∧ g.dst = l.dst := by
  induction es generalizing w with
  | nil => exact absurd rfl h
  | cons e es ih =>
    have key : ∀ w, (postponed c o res l es w).1 ≠ [] →
        ∃ e' ∈ e :: es, ∃ g : Edge N V, Pkt.attach e'.dst g ∈ (postponed c o res l es w).1 ∧ g.dst = l.dst := by
      intro w h
      obtain ⟨e', h1, h2⟩ := ih w h
      exact ⟨e', List.mem_cons_of_mem _ h1, h2⟩
    unfold postponed at h ⊢
    by_cases hw : w.err ≠ 0
    · rw [if_pos hw] at h; exact absurd rfl h
    · rw [if_neg hw] at h ⊢
      dsimp only at h ⊢
      by_cases hp : (passed o.bpred w).1 = false
      · rw [if_pos hp] at h ⊢; exact key _ h
      · rw [if_neg hp] at h ⊢
        generalize edge c (applied o.bop c.eFree (passed o.bpred w).2).1 none [] (applied o.bop c.eFree (passed o.bpred w).2).2 = g at h ⊢
        obtain ⟨gs, w1⟩ := g
        cases gs with
        | nil => exact key _ h
        | cons y gs =>
          dsimp only at h ⊢
          split_ifs at h ⊢
          · exact key _ h
          · exact ⟨e, by simp, _, List.mem_cons_self, rfl⟩

theorem move_bal (c : Env) (o : Ops V) (res : Nat → Bool) (st ls acc : List (Edge N V)) (w : World) (x : Multiset (Nat × Nat)) :
    Bal w (move c o res st ls acc w).world (labels c ls + labels c acc + x)
      (labels c (move c o res st ls acc w).out + sent c ((move c o res st ls acc w).sent : Multiset (Pkt N V)) + x) := by
  induction ls generalizing acc w x with
  | nil => exact (Bal.refl w _).cast rfl (by simp [move])
  | cons l ls ih =>
    unfold move
    dsimp only
    have h1 := postponed_bal c o res l st w (labels c (l :: ls) + labels c acc + x)
    generalize postponed c o res l st w = r at h1 ⊢
    by_cases hr : r.1.isEmpty
    · rw [if_pos hr]
      refine h1.trans ((ih (l :: acc) r.2 x).cast ?_ rfl)
      rw [List.isEmpty_iff.1 hr]
      simp; abel
    · rw [if_neg hr]
      refine h1.trans (((destroy_frame c c.eFree l.label r.2 (sent c (r.1 : Multiset (Pkt N V)) + (labels c ls + labels c acc + x))).cast ?_ rfl).trans
        ((ih acc _ (sent c (r.1 : Multiset (Pkt N V)) + x)).cast ?_ ?_))
      · simp; abel
      · abel
      · rw [← Multiset.coe_add, sent_add]; abel

theorem move_acc (c : Env) (o : Ops V) (res : Nat → Bool) (st ls acc : List (Edge N V)) (w : World) :
    ∀ e ∈ acc, e ∈ (move c o res st ls acc w).out := by
  induction ls generalizing acc w with
  | nil => exact fun e h => h
  | cons l ls ih =>
    intro e he
    unfold move
    dsimp only
    split_ifs
    · exact ih _ _ e (List.mem_cons_of_mem _ he)
    · exact ih _ _ e he

theorem move_link (c : Env) (o : Ops V) (res : Nat → Bool) (st ls acc : List (Edge N V)) (w : World) :
    ∀ l ∈ ls, l ∈ (move c o res st ls acc w).out ∨
      ∃ e ∈ st, ∃ g : Edge N V, Pkt.attach e.dst g ∈ (move c o res st ls acc w).sent ∧ g.dst = l.dst := by
  induction ls generalizing acc w with
  | nil => simp
  | cons a ls ih =>
    intro l hl
    unfold move
    dsimp only
    by_cases hr : (postponed c o res a st w).1.isEmpty
    · rw [if_pos hr]
      rcases List.mem_cons.1 hl with rfl | hl
      · exact .inl (move_acc c o res st ls _ _ l (by simp))
      · exact ih _ _ l hl
    · rw [if_neg hr]
      rcases List.mem_cons.1 hl with rfl | hl
      · obtain ⟨e, h1, g, h2, h3⟩ := postponed_link c o res l st w (by simpa using hr)
        exact .inr ⟨e, h1, g, List.mem_append_left _ h2, h3⟩
      · rcases ih acc (destroy c.fails c.eFree a.label (postponed c o res a st w).2) l hl with h | ⟨e, h1, g, h2, h3⟩
        · exact .inl h
        · exact .inr ⟨e, h1, g, List.mem_append_right _ h2, h3⟩

theorem postpone_bal [DecidableEq N] (c : Env) (o : Ops V) (res : Nat → Bool) (m : N) (es : List (Edge N V)) (w : World) (x : Multiset (Nat × Nat)) :
    Bal w (postpone c o res m es w).world (labels c es + x)
      (labels c (postpone c o res m es w).out + sent c ((postpone c o res m es w).sent : Multiset (Pkt N V)) + x) := by
  unfold postpone
  split_ifs
  · exact (Bal.refl w _).cast rfl (by simp)
  · exact (Bal.refl w _).cast rfl (by simp)
  · dsimp only
    have h1 := fun x => (bipartition_bal c o m es [] [] w x).cast (by simp : _ = labels c es + x) rfl
    generalize bipartition o m es [] [] w = b at h1 ⊢
    by_cases hb : b.still.isEmpty
    · rw [if_pos hb]
      refine (h1 x).cast rfl ?_
      rw [List.isEmpty_iff.1 hb]; simp
    · rw [if_neg hb]
      refine (h1 x).trans ((move_bal c o res b.still b.movable b.left b.world (labels c b.still + x)).cast ?_ ?_)
      · abel
      · rw [labels_append]; abel

/-- Every edge is kept, or leads to the same node by way of another that's kept. -/
theorem postpone_link [DecidableEq N] (c : Env) (o : Ops V) (res : Nat → Bool) (m : N) (es : List (Edge N V)) (w : World) :
    ∀ l ∈ es, l ∈ (postpone c o res m es w).out ∨
      ∃ e ∈ (postpone c o res m es w).out, ∃ g : Edge N V, Pkt.attach e.dst g ∈ (postpone c o res m es w).sent ∧ g.dst = l.dst := by
  intro l hl
  unfold postpone
  split_ifs
  · exact .inl hl
  · exact .inl hl
  · dsimp only
    have h1 := bipartition_mem o m es [] [] w l (.inl hl)
    generalize bipartition o m es [] [] w = b at h1 ⊢
    by_cases hb : b.still.isEmpty
    · rw [if_pos hb]
      rw [List.isEmpty_iff.1 hb] at h1
      dsimp only
      rw [List.mem_append]
      simp at h1
      exact .inl h1
    · rw [if_neg hb]
      dsimp only
      rcases h1 with h1 | h1 | h1
      · exact .inl (List.mem_append_left _ (move_acc c o res _ _ _ _ l h1))
      · exact .inl (List.mem_append_right _ h1)
      · rcases move_link c o res b.still b.movable b.left b.world l h1 with h2 | ⟨e, h2, h3⟩
        · exact .inl (List.mem_append_left _ h2)
        · exact .inr ⟨e, List.mem_append_right _ h2, h3⟩

/-! ## The first pass -/

/-- An edge, or an edge waiting to be attached, or on its way. -/
def Link (h : Heap n N V) (ps : Multiset (Pkt N V)) (x y : N) : Prop :=
  (∃ e ∈ h.out x, e.dst = y) ∨ (∃ e ∈ h.post x, e.dst = y) ∨ ∃ e, Pkt.attach x e ∈ ps ∧ e.dst = y

structure Inv [Fintype N] (c : Env) (b : N) (h : Heap n N V) (ps : Multiset (Pkt N V)) : Prop where
  wf : h.world.WF
  ledger : h.world.made = h.world.freed + (graphHeld c h + waiting c h + sent c ps)
  reach : ∀ m, Relation.ReflTransGen (Link h ps) b m

theorem Inv.step [Fintype N] {b : N} {h h' : Heap n N V} {ps qs : Multiset (Pkt N V)} (hi : Inv c b h ps)
    (hb : Bal h.world h'.world (graphHeld c h + waiting c h + sent c ps) (graphHeld c h' + waiting c h' + sent c qs))
    (hr : ∀ x y, Link h ps x y → Relation.ReflTransGen (Link h' qs) x y) : Inv c b h' qs := by
  have := Exact.bal hb hi.wf hi.ledger
  refine ⟨hb.wf hi.wf, this.2, fun m => ?_⟩
  induction hi.reach m with
  | refl => exact .refl
  | tail _ h ih => exact ih.trans (hr _ _ h)

theorem held_attach [Fintype N] [DecidableEq N] (h : Heap n N V) (m : N) (e : Edge N V) (w : World) :
    graphHeld c { h with post := Function.update h.post m (e :: h.post m), world := w } = graphHeld c h ∧
    waiting c { h with post := Function.update h.post m (e :: h.post m), world := w } = owned c.eFree e.label + waiting c h := by
  refine ⟨rfl, ?_⟩
  unfold waiting
  obtain ⟨r, r1, r2⟩ := sum_at (fun t => labels c (h.post t)) (fun t => labels c (Function.update h.post m (e :: h.post m) t)) m
    (fun t ht => by rw [Function.update_of_ne ht])
  dsimp only
  rw [r1, r2, Function.update_self, labels_cons, add_assoc]

theorem held_out [Fintype N] [DecidableEq N] (h : Heap n N V) (m : N) (es : List (Edge N V)) (w : World) :
    graphHeld c { h with out := Function.update h.out m es, world := w } + labels c (h.out m) = graphHeld c h + labels c es := by
  unfold graphHeld
  obtain ⟨r, r1, r2⟩ := sum_at (fun t => held c h t) (fun t => held c ({ h with out := Function.update h.out m es, world := w } : Heap n N V) t) m
    (fun t ht => by simp [held, Function.update_of_ne ht])
  rw [r1, r2]
  simp only [held, Function.update_self]
  abel

theorem ledger_moved {w a q : World} {es out st g wt sr g' : Multiset (Nat × Nat)} (a1 : ∀ x, Bal w a x x)
    (q1 : ∀ x, Bal a q (es + x) (out + st + x)) (h : g' + es = g + out) : Bal w q (g + wt + sr) (g' + wt + (st + sr)) := by
  refine ⟨?_, fun hw => (q1 0).wf ((a1 0).wf hw)⟩
  have k := ((a1 _).trans (q1 (g + wt + sr))).ledger
  refine add_right_cancel (b := es) ?_
  calc _ = q.made + w.freed + (es + (g + wt + sr)) := by abel
    _ = w.made + q.freed + (out + st + (g + wt + sr)) := k
    _ = w.made + q.freed + (st + wt + sr + (g + out)) := by abel
    _ = _ := by rw [← h]; abel

theorem Inv.moved [Fintype N] [DecidableEq N] {b m : N} {h : Heap n N V} {rest : Multiset (Pkt N V)} (hi : Inv c b h (.visit m ::ₘ rest))
    (ns : List N) {a : World} {q : Moved N V} (a1 : ∀ x, Bal h.world a x x)
    (q1 : ∀ x, Bal a q.world (labels c (h.out m) + x) (labels c q.out + sent c (q.sent : Multiset (Pkt N V)) + x))
    (q2 : ∀ l ∈ h.out m, l ∈ q.out ∨ ∃ e ∈ q.out, ∃ g : Edge N V, Pkt.attach e.dst g ∈ q.sent ∧ g.dst = l.dst) :
    Inv c b { h with out := Function.update h.out m q.out, world := q.world }
      (((ns.map Pkt.visit ++ q.sent : List (Pkt N V)) : Multiset (Pkt N V)) + rest) := by
  refine hi.step ?_ ?_
  · rw [← Multiset.coe_add, sent_add, sent_add, sent_visits, sent_cons, zero_add]
    refine (ledger_moved (wt := waiting c h) (sr := sent c rest) a1 q1 (held_out h m q.out q.world)).cast ?_ rfl
    simp [Pkt.held]
  · have hout : ∀ g ∈ q.out, Link ({ h with out := Function.update h.out m q.out, world := q.world } : Heap n N V)
        (((ns.map Pkt.visit ++ q.sent : List (Pkt N V)) : Multiset (Pkt N V)) + rest) m g.dst := by
      intro g hg
      exact .inl ⟨g, by show g ∈ Function.update h.out m q.out m; rw [Function.update_self]; exact hg, rfl⟩
    rintro x y (⟨f, h1, h2⟩ | h1 | ⟨f, h1, h2⟩)
    · by_cases hx : x = m
      · subst hx
        rw [← h2]
        rcases q2 f h1 with h3 | ⟨g, h3, k, h4, h5⟩
        · exact .single (hout f h3)
        · refine (Relation.ReflTransGen.single (hout g h3)).tail ?_
          rw [← h5]
          exact .inr (.inr ⟨k, Multiset.mem_add.2 (.inl (by simpa using h4)), rfl⟩)
      · exact .single (.inl ⟨f, by show f ∈ Function.update h.out m q.out x; rw [Function.update_of_ne hx]; exact h1, h2⟩)
    · exact .single (.inr (.inl h1))
    · exact .single (.inr (.inr ⟨f, Multiset.mem_add.2 (.inr (by simpa using h1)), h2⟩))

theorem postponeIt_inv [Fintype N] [DecidableEq N] {o : Ops V} {res : Nat → Bool} {b : N} {s : Work n N V} {p : Pkt N V}
    {rest : Multiset (Pkt N V)} (i : Fin n) (hi : Inv c b s.mem (p ::ₘ rest)) :
    Inv c b (postponeIt c o res i s p).1.mem (((postponeIt c o res i s p).2.1 : Multiset (Pkt N V)) + rest) ∧ (postponeIt c o res i s p).2.2 = false := by
  unfold postponeIt
  obtain ⟨sample, stop, e, -⟩ := Trav.poll_eq s i
  dsimp only
  rw [e]
  cases p with
  | attach m a =>
    refine ⟨?_, rfl⟩
    refine hi.step ?_ ?_
    · obtain ⟨h1, h2⟩ := held_attach (c := c) s.mem m a { s.mem.world with err := s.err i }
      refine (Bal.err s.mem.world (s.err i) _).cast rfl (Eq.trans ?_ (congrArg₂ (· + ·) (congrArg₂ (· + ·) h1 h2).symm
        (?_ : sent c rest = _)))
      · simp [Pkt.held]; abel
      · simp
    · rintro x y (h | ⟨f, h, h'⟩ | ⟨f, h, h'⟩)
      · exact .single (.inl h)
      · refine .single (.inr (.inl ⟨f, ?_, h'⟩))
        show f ∈ Function.update s.mem.post m (a :: s.mem.post m) x
        by_cases hx : x = m
        · subst hx; rw [Function.update_self]; exact List.mem_cons_of_mem _ h
        · rw [Function.update_of_ne hx]; exact h
      · rcases Multiset.mem_cons.1 h with h | h
        · obtain ⟨rfl, rfl⟩ : x = m ∧ f = a := by injection h with h1 h2; exact ⟨h1, h2⟩
          refine .single (.inr (.inl ⟨f, ?_, h'⟩))
          show f ∈ Function.update s.mem.post x (f :: s.mem.post x) x
          rw [Function.update_self]; simp
        · exact .single (.inr (.inr ⟨f, by simpa using h, h'⟩))
  | visit m =>
    have drop : ∀ w : World, (∀ x, Bal s.mem.world w x x) → Inv c b { s.mem with world := w } rest := by
      intro w hw
      refine hi.step ((hw _).cast rfl ?_) ?_
      · show graphHeld c s.mem + waiting c s.mem + _ = graphHeld c s.mem + waiting c s.mem + _
        simp [Pkt.held]
      · rintro x y (h | h | ⟨f, h, h'⟩)
        · exact .single (.inl h)
        · exact .single (.inr (.inl h))
        · exact .single (.inr (.inr ⟨f, by simpa using h, h'⟩))
    dsimp only
    split_ifs with h1 h2
    · exact ⟨by simpa using drop s.mem.world fun x => Bal.refl _ x, rfl⟩
    · refine ⟨?_, rfl⟩
      rw [show (([] : List (Pkt N V)) : Multiset (Pkt N V)) + rest = rest from zero_add rest]
      exact drop _ fun x => (Bal.err _ _ x).trans (alloc_bal c _ x)
    · refine ⟨?_, rfl⟩
      exact hi.moved _ (fun x => (Bal.err s.mem.world (s.err i) x).trans ((alloc_bal c _ x).trans (scatter_bal c res (s.mem.out m) _ x)))
        (postpone_bal c o res m (s.mem.out m) _) (postpone_link c o res m (s.mem.out m) _)

theorem postponing_inv [Fintype N] [DecidableEq N] {o : Ops V} {res : Nat → Bool} {addr : N → Nat} {hn : 0 < n} {b b' : N} {h₀ : Heap n N V}
    (hi : Inv c b h₀ 0) : ∀ x, Bag.Reach (postponing c o res addr hn) (.visit b') (Trav.start h₀) x → Inv c b x.1.mem x.2 := by
  intro x hx
  induction hx with
  | init =>
    refine hi.step ((Bal.refl _ _).cast rfl (by simp [sent, Pkt.held, Trav.start])) ?_
    rintro x y (h | h | ⟨f, h, h'⟩)
    · exact .single (.inl h)
    · exact .single (.inr (.inl h))
    · simp at h
  | step hr hs ih =>
    cases hs with
    | env e s m => exact ih
    | handle s p rest =>
      have key := postponeIt_inv (o := o) (res := res) ((postponing c o res addr hn (n := n)).dest p) ih
      have hp : Bag.produced (postponing c o res addr hn) s p + rest =
          ((postponeIt c o res ((postponing c o res addr hn (n := n)).dest p) s p).2.1 : Multiset (Pkt N V)) + rest := by
        have := key.2
        unfold Bag.produced
        show _ + (if (postponeIt c o res ((postponing c o res addr hn (n := n)).dest p) s p).2.2 = true then _ else _) + _ = _
        rw [this]
        simp; rfl
      dsimp only
      rw [hp]
      exact key.1

/-! ## The second pass -/

theorem bal_wf {h h' : World} {i o : Multiset (Nat × Nat)} (hb : Bal h h' i o) (hw : h.WF) (hl : h.made = h.freed + i) :
    h'.WF ∧ h'.made = h'.freed + o := ⟨hb.wf hw, (Exact.bal hb hw hl).2⟩

theorem bury_bal [Fintype N] [DecidableEq N] (c : Env) (h : Heap n N V) (m : N) :
    Bal h.world (bury c h m).world (graphHeld c h + waiting c h) (graphHeld c (bury c h m) + waiting c (bury c h m)) := by
  obtain ⟨r, r1, r2⟩ := sum_at (fun t => held c h t) (fun t => held c (bury c h m) t) m
    (fun t ht => by simp [held, bury, Function.update_of_ne ht])
  have e1 : graphHeld c h = owned c.vFree (h.vertex m) + (labels c (h.out m) + r) := by
    unfold graphHeld; rw [r1]; simp only [held]; abel
  have e2 : graphHeld c (bury c h m) = labels c (h.out m) + r := by
    unfold graphHeld; rw [r2]
    simp only [held, bury, Function.update_self, owned_none, zero_add]
  have e3 : waiting c (bury c h m) = waiting c h := rfl
  rw [e1, e2, e3]
  refine (destroy_frame c c.vFree (h.vertex m) h.world (labels c (h.out m) + r + waiting c h)).cast ?_ rfl
  abel

theorem absorb_bal [Fintype N] [DecidableEq N] (c : Env) (o : Ops V) (addr : N → Nat) (i : Fin n) (h : Heap n N V) (m : N) :
    Bal h.world (absorb c o addr i h m).world (graphHeld c h + waiting c h)
      (graphHeld c (absorb c o addr i h m) + waiting c (absorb c o addr i h m)) := by
  unfold absorb
  split_ifs
  · exact Bal.refl _ _
  · dsimp only
    have hd := DedupAcc.dedup_bal c o.same addr (h.post m ++ h.out m) h.world
    generalize dedup c o.same addr (h.post m ++ h.out m) h.world = d at hd ⊢
    obtain ⟨r, r1, r2⟩ := sum_at (fun t => held c h t) (fun t => held c ({ h with out := Function.update h.out m d.1 } : Heap n N V) t) m
      (fun t ht => by simp [held, Function.update_of_ne ht])
    obtain ⟨q, q1, q2⟩ := sum_at (fun t => labels c (h.post t)) (fun t => labels c (Function.update h.post m [] t)) m
      (fun t ht => by rw [Function.update_of_ne ht])
    have e1 : graphHeld c h = held c h m + r := r1
    have e2 : waiting c h = labels c (h.post m) + q := q1
    have e3 : (∑ t, held c ({ h with out := Function.update h.out m d.1 } : Heap n N V) t) = owned c.vFree (h.vertex m) + labels c d.1 + r := by
      rw [r2]; simp [held]
    have e4 : (∑ t, labels c (Function.update h.post m [] t)) = q := by rw [q2]; simp
    rw [e1, e2]
    show Bal h.world d.2 _ ((∑ t, held c ({ h with out := Function.update h.out m d.1 } : Heap n N V) t) + ∑ t, labels c (Function.update h.post m [] t))
    rw [e3, e4]
    refine (hd (owned c.vFree (h.vertex m) + r + q)).cast ?_ ?_
    · rw [labels_append]; simp only [held]; abel
    · abel

/-- From one heap to another, what's held is what was held and what was made, without what was freed. -/
abbrev Keeps [Fintype N] (c : Env) (h h' : Heap n N V) : Prop :=
  Bal h.world h'.world (graphHeld c h + waiting c h) (graphHeld c h' + waiting c h')

theorem Keeps.world [Fintype N] (h : Heap n N V) {w : World} (hb : ∀ x, Bal h.world w x x) : Keeps c h { h with world := w } := hb _

theorem absorbIt_bal [Fintype N] [DecidableEq N] (c : Env) (o : Ops V) (res : Nat → Bool) (addr : N → Nat) (i : Fin n) (s : Work n N V) (m : N) :
    Keeps c s.mem (absorbIt c o res addr i s m).1.mem := by
  unfold absorbIt
  obtain ⟨sample, stop, e, -⟩ := Trav.poll_eq s i
  dsimp only
  rw [e]
  have a1 : Keeps c s.mem { own i { s with sample := sample, stop := stop } with
      world := alloc c (own i { s with sample := sample, stop := stop }).world } :=
    Keeps.world s.mem fun x => (Bal.err s.mem.world (s.err i) x).trans (alloc_bal c _ x)
  by_cases h1 : m ∈ s.seen i
  · rw [if_pos h1]; exact Bal.refl _ _
  · rw [if_neg h1]
    by_cases h2 : c.mem (own i { s with sample := sample, stop := stop }).world.clock = false
    · rw [if_pos h2]; exact a1
    · rw [if_neg h2]
      generalize ({ own i { s with sample := sample, stop := stop } with
        world := alloc c (own i { s with sample := sample, stop := stop }).world } : Heap n N V) = h at a1 ⊢
      by_cases h3 : s.err i ≠ 0 ∨ stop i = true
      · rw [if_pos h3]; exact Bal.trans a1 (bury_bal c h m)
      · rw [if_neg h3]
        have a2 : Keeps c s.mem (absorb c o addr i h m) := Bal.trans a1 (absorb_bal c o addr i h m)
        generalize absorb c o addr i h m = a at a2 ⊢
        by_cases h4 : a.world.err ≠ 0
        · rw [if_pos h4]; exact Bal.trans a2 (bury_bal c a m)
        · rw [if_neg h4]
          have a3 : Keeps c s.mem { a with world := (scatter c res (a.out m) a.world).2 } :=
            Bal.trans a2 (Keeps.world a fun x => scatter_bal c res (a.out m) a.world x)
          generalize ({ a with world := (scatter c res (a.out m) a.world).2 } : Heap n N V) = b at a3 ⊢
          by_cases h5 : (scatter c res (a.out m) a.world).2.err ≠ 0
          · simp only [if_pos h5]; exact Bal.trans a3 (bury_bal c b m)
          · simp only [if_neg h5]; exact a3

/-- What a worker does if there's no error afterwards. -/
theorem absorbIt_cases [DecidableEq N] {c : Env} {o : Ops V} {res : Nat → Bool} {addr : N → Nat} (ha : Function.Injective addr) {i : Fin n}
    {s : Work n N V} {m : N} (hz : ∀ j, (absorbIt c o res addr i s m).1.err j = 0) :
    (∀ j, s.err j = 0) ∧ ∃ stop : Fin n → Bool, (absorbIt c o res addr i s m).1.stop = stop ∧ (∀ j, stop j = false → s.stop j = false) ∧
    ((m ∈ s.seen i ∧ (absorbIt c o res addr i s m).1.seen = s.seen ∧ (absorbIt c o res addr i s m).1.mem = s.mem ∧
        (absorbIt c o res addr i s m).2.1 = []) ∨
      m ∉ s.seen i ∧ (absorbIt c o res addr i s m).1.seen = Function.update s.seen i (s.seen i ++ [m]) ∧
      ((stop i = true ∧ (absorbIt c o res addr i s m).1.mem.out = s.mem.out ∧ (absorbIt c o res addr i s m).1.mem.post = s.mem.post) ∨
        ((∀ x, x ≠ m → (absorbIt c o res addr i s m).1.mem.out x = s.mem.out x) ∧
          (absorbIt c o res addr i s m).1.mem.post = Function.update s.mem.post m [] ∧
          (∀ y, (∃ e ∈ (absorbIt c o res addr i s m).1.mem.out m, e.dst = y) ↔ ∃ e ∈ s.mem.post m ++ s.mem.out m, e.dst = y) ∧
          (absorbIt c o res addr i s m).2.1 = ((absorbIt c o res addr i s m).1.mem.out m).map Edge.dst))) := by
  unfold absorbIt at hz ⊢
  obtain ⟨sample, stop, e, e1, e2, -⟩ := Trav.poll_eq s i
  dsimp only at hz ⊢
  rw [e] at hz ⊢
  have hst : ∀ j, stop j = false → s.stop j = false := by
    intro j hj
    by_cases h : j = i
    · subst h; exact e2 hj
    · rw [← e1 j h]; exact hj
  have other : ∀ {t : Work n N V} {h : Heap n N V}, t.err = s.err → (∀ j, (put i t h).err j = 0) → s.err i = 0 → ∀ j, s.err j = 0 := by
    intro t h ht hz hi j
    by_cases hj : j = i
    · subst hj; exact hi
    · have := hz j
      simp only [put, Function.update_of_ne hj] at this
      rw [← ht]; exact this
  have mine : ∀ {t : Work n N V} {h : Heap n N V}, (∀ j, (put i t h).err j = 0) → h.world.err = 0 := by
    intro t h hz
    simpa [put] using hz i
  have ow : (own i { s with sample := sample, stop := stop }).world.err = s.err i := rfl
  by_cases h1 : m ∈ s.seen i
  · rw [if_pos h1] at hz ⊢
    exact ⟨hz, stop, rfl, hst, .inl ⟨h1, rfl, rfl, rfl⟩⟩
  · rw [if_neg h1] at hz ⊢
    by_cases h2 : c.mem (own i { s with sample := sample, stop := stop }).world.clock = false
    · rw [if_pos h2] at hz
      have := mine hz
      simp only [alloc, World.raise, h2] at this
      split_ifs at this <;> simp_all
    · rw [if_neg h2] at hz ⊢
      by_cases h3 : s.err i ≠ 0 ∨ stop i = true
      · rw [if_pos h3] at hz ⊢
        have h4 : s.err i = 0 := by
          by_contra hne
          have := mine hz
          simp only [bury] at this
          rw [DedupAcc.destroy_sticky _ _ (by rw [alloc_sticky (by rw [ow]; exact hne), ow]; exact hne),
            alloc_sticky (by rw [ow]; exact hne), ow] at this
          exact hne this
        refine ⟨other rfl hz h4, stop, rfl, hst, .inr ⟨h1, rfl, .inl ⟨?_, rfl, rfl⟩⟩⟩
        rcases h3 with h3 | h3
        · exact absurd h4 h3
        · exact h3
      · rw [if_neg h3] at hz ⊢
        have h4 : s.err i = 0 := by
          by_contra hne; exact h3 (.inl hne)
        have hab : ∀ h : Heap n N V, (absorb c o addr i h m).world.err = 0 → (∀ x, x ≠ m → (absorb c o addr i h m).out x = h.out x) ∧
            (absorb c o addr i h m).post = Function.update h.post m [] ∧
            ∀ y, (∃ e ∈ (absorb c o addr i h m).out m, e.dst = y) ↔ ∃ e ∈ h.post m ++ h.out m, e.dst = y := by
          intro h hz
          unfold absorb at hz ⊢
          split_ifs at hz ⊢ with hp
          · rw [List.isEmpty_iff] at hp
            refine ⟨fun _ _ => rfl, ?_, ?_⟩
            · rw [← hp, Function.update_eq_self]
            · rw [hp]; simp
          · refine ⟨fun x hx => Function.update_of_ne hx _ _, rfl, fun y => ?_⟩
            dsimp only at hz ⊢
            rw [Function.update_self]
            exact DedupAcc.dedup_dst c o.same addr ha _ _ hz y
        generalize hg : absorb c o addr i { own i { s with sample := sample, stop := stop } with
          world := alloc c (own i { s with sample := sample, stop := stop }).world } m = a at hz ⊢
        by_cases h5 : a.world.err ≠ 0
        · rw [if_pos h5] at hz
          have := mine hz
          simp only [bury] at this
          rw [DedupAcc.destroy_sticky _ _ h5] at this
          exact absurd this h5
        · rw [if_neg h5] at hz ⊢
          by_cases h6 : (scatter c res (a.out m) a.world).2.err ≠ 0
          · simp only [if_pos h6] at hz
            have := mine hz
            simp only [bury] at this
            rw [DedupAcc.destroy_sticky _ _ h6] at this
            exact absurd this h6
          · simp only [if_neg h6] at hz ⊢
            obtain ⟨k1, k2, k3⟩ := hab _ (by rw [hg]; exact not_not.1 h5)
            rw [hg] at k1 k2 k3
            refine ⟨other rfl hz h4, stop, rfl, hst, .inr ⟨h1, rfl, .inr ⟨k1, k2, k3, ?_⟩⟩⟩
            exact scatter_all c res _ _ (not_not.1 h6)

structure AInv [Fintype N] (c : Env) (lane : N → Fin n) (b : N) (s : Work n N V) (ps : Multiset N) : Prop where
  wf : s.mem.world.WF
  ledger : s.mem.world.made = s.mem.world.freed + (graphHeld c s.mem + waiting c s.mem)
  reach : (∀ j, s.err j = 0) → ∀ m, Relation.ReflTransGen (Link s.mem 0) b m
  front : (∀ j, s.err j = 0) → (∀ j, s.stop j = false) → (b ∈ s.seen (lane b) ∨ b ∈ ps) ∧
    ∀ m, m ∈ s.seen (lane m) → s.mem.post m = [] ∧ ∀ e ∈ s.mem.out m, e.dst ∈ s.seen (lane e.dst) ∨ e.dst ∈ ps
  stop : s.killed = 0 → ∀ j, s.stop j = false

theorem absorbIt_stop [DecidableEq N] (c : Env) (o : Ops V) (res : Nat → Bool) (addr : N → Nat) (i : Fin n) (s : Work n N V) (m : N) :
    (absorbIt c o res addr i s m).1.killed = s.killed ∧ (absorbIt c o res addr i s m).2.2 = false ∧
    (∀ j, (absorbIt c o res addr i s m).1.stop j = true → s.stop j = true ∨ s.killed ≠ 0) := by
  unfold absorbIt
  obtain ⟨sample, stop, e, e1, -, e3⟩ := Trav.poll_eq s i
  dsimp only
  rw [e]
  have hs : ∀ j, stop j = true → s.stop j = true ∨ s.killed ≠ 0 := by
    intro j hj
    by_cases h : j = i
    · subst h; exact e3 hj
    · rw [← e1 j h]; exact .inl hj
  split_ifs <;> exact ⟨rfl, rfl, hs⟩

theorem AInv.step [Fintype N] [DecidableEq N] {o : Ops V} {res : Nat → Bool} {addr : N → Nat} (ha : Function.Injective addr) {lane : N → Fin n}
    {b m : N} {s : Work n N V} {rest : Multiset N} (hi : AInv c lane b s (m ::ₘ rest)) :
    AInv c lane b (absorbIt c o res addr (lane m) s m).1 (((absorbIt c o res addr (lane m) s m).2.1 : Multiset N) + rest) := by
  obtain ⟨w1, w2⟩ := bal_wf (absorbIt_bal c o res addr (lane m) s m) hi.wf hi.ledger
  obtain ⟨k1, -, k3⟩ := absorbIt_stop c o res addr (lane m) s m
  refine ⟨w1, w2, ?_, ?_, ?_⟩
  · intro hz
    obtain ⟨z, stop, -, -, h⟩ := absorbIt_cases ha hz
    generalize absorbIt c o res addr (lane m) s m = r at h
    have keep : (∀ x y, Link s.mem 0 x y → Link r.1.mem 0 x y) → ∀ m, Relation.ReflTransGen (Link r.1.mem 0) b m :=
      fun hl m => Relation.ReflTransGen.mono hl _ _ (hi.reach z m)
    rcases h with ⟨-, -, h, -⟩ | ⟨-, -, ⟨-, h1, h2⟩ | ⟨h1, h2, h3, -⟩⟩
    · rw [h]; exact hi.reach z
    · refine keep ?_
      rintro x y h
      simpa [Link, h1, h2] using h
    · refine keep ?_
      rintro x y (h | h | ⟨e, h, -⟩)
      · by_cases hx : x = m
        · subst hx
          obtain ⟨e, k, k'⟩ := h
          exact .inl ((h3 y).2 ⟨e, List.mem_append_right _ k, k'⟩)
        · exact .inl (by rw [h1 x hx]; exact h)
      · by_cases hx : x = m
        · subst hx
          obtain ⟨e, k, k'⟩ := h
          exact .inl ((h3 y).2 ⟨e, List.mem_append_left _ k, k'⟩)
        · exact .inr (.inl (by rw [h2, Function.update_of_ne hx]; exact h))
      · simp at h
  · intro hz hst
    obtain ⟨z, stop, h0, h0', h⟩ := absorbIt_cases ha hz
    rw [h0] at hst
    obtain ⟨f1, f2⟩ := hi.front z fun j => h0' j (hst j)
    generalize absorbIt c o res addr (lane m) s m = r at h
    rcases h with ⟨h, h1, h2, h3⟩ | ⟨h, h1, ⟨h2, -⟩ | ⟨h2, h3, -, h4⟩⟩
    · rw [h1, h2, h3]
      have tr : ∀ x, x ∈ s.seen (lane x) ∨ x ∈ m ::ₘ rest → x ∈ s.seen (lane x) ∨ x ∈ ((([] : List N) : Multiset N) + rest) := by
        rintro x (hx | hx)
        · exact .inl hx
        · rcases Multiset.mem_cons.1 hx with rfl | hx
          · exact .inl h
          · exact .inr (by simpa using hx)
      exact ⟨tr b f1, fun x hx => ⟨(f2 x hx).1, fun e he => tr _ ((f2 x hx).2 e he)⟩⟩
    · rw [hst] at h2; cases h2
    · rw [h1]
      have up : ∀ x, x ∈ s.seen (lane x) → x ∈ Function.update s.seen (lane m) (s.seen (lane m) ++ [m]) (lane x) := by
        intro x hx
        by_cases hl : lane x = lane m
        · rw [hl, Function.update_self]; exact List.mem_append_left _ (hl ▸ hx)
        · rw [Function.update_of_ne hl]; exact hx
      have tr : ∀ x, x ∈ s.seen (lane x) ∨ x ∈ m ::ₘ rest →
          x ∈ Function.update s.seen (lane m) (s.seen (lane m) ++ [m]) (lane x) ∨ x ∈ ((r.2.1 : Multiset N) + rest) := by
        rintro x (hx | hx)
        · exact .inl (up x hx)
        · rcases Multiset.mem_cons.1 hx with rfl | hx
          · exact .inl (by simp)
          · exact .inr (Multiset.mem_add.2 (.inr hx))
      refine ⟨tr b f1, fun x hx => ?_⟩
      by_cases hxm : x = m
      · subst hxm
        refine ⟨by rw [h3, Function.update_self], fun e he => .inr (Multiset.mem_add.2 (.inl ?_))⟩
        rw [h4]
        exact Multiset.mem_coe.2 (List.mem_map_of_mem he)
      · have hx' : x ∈ s.seen (lane x) := by
          by_cases hl : lane x = lane m
          · rw [hl, Function.update_self, List.mem_append] at hx
            rcases hx with hx | hx
            · rw [hl]; exact hx
            · exact absurd (List.mem_singleton.1 hx) hxm
          · rw [Function.update_of_ne hl] at hx; exact hx
        refine ⟨by rw [h3, Function.update_of_ne hxm]; exact (f2 x hx').1, fun e he => ?_⟩
        rw [h2 x hxm] at he
        exact tr _ ((f2 x hx').2 e he)
  · intro hk j
    rw [k1] at hk
    by_contra hne
    rcases k3 j (by simpa using hne) with h | h
    · rw [hi.stop hk j] at h; cases h
    · exact h hk

theorem absorbing_inv [Fintype N] [DecidableEq N] {o : Ops V} {res : Nat → Bool} {addr : N → Nat} (ha : Function.Injective addr) {hn : 0 < n}
    {b : N} {h₀ : Heap n N V} (hi : Inv c b h₀ 0) :
    ∀ x, Bag.Reach (absorbing c o res addr hn) b (Trav.start h₀) x → AInv c (fun m => Build.lane hn (addr m)) b x.1 x.2 := by
  intro x hx
  induction hx with
  | init =>
    refine ⟨hi.wf, by simpa [Trav.start] using hi.ledger, fun _ => hi.reach, fun _ _ => ⟨.inr (by simp), fun m hm => ?_⟩, fun _ _ => rfl⟩
    simp [Trav.start] at hm
  | step hr hs ih =>
    cases hs with
    | env e s m => exact ⟨ih.wf, ih.ledger, ih.reach, ih.front, fun h => absurd h (by simp [absorbing])⟩
    | handle s p rest =>
      have key := ih.step (o := o) (res := res) ha
      have hp : Bag.produced (absorbing c o res addr hn) s p + rest =
          ((absorbIt c o res addr (Build.lane hn (addr p)) s p).2.1 : Multiset N) + rest := by
        have := (absorbIt_stop c o res addr (Build.lane hn (addr p)) s p).2.1
        unfold Bag.produced
        show _ + (if (absorbIt c o res addr (Build.lane hn (addr p)) s p).2.2 = true then _ else _) + _ = _
        rw [this]
        simp; rfl
      dsimp only
      rw [hp]
      exact key

/-! ## The passes and the loop -/

theorem foldl_zero (l : List Int) (r : Int) (h : l.foldl (fun r e => if r = 0 then e else r) r = 0) : r = 0 ∧ ∀ x ∈ l, x = 0 := by
  induction l generalizing r with
  | nil => exact ⟨h, by simp⟩
  | cons a l ih =>
    rw [List.foldl_cons] at h
    obtain ⟨h1, h2⟩ := ih _ h
    by_cases hr : r = 0
    · rw [if_pos hr] at h1
      exact ⟨hr, by simpa [h1] using h2⟩
    · rw [if_neg hr] at h1; exact absurd h1 hr

theorem status_zero {s : Work n N V} {late : Int} (h : status s late = 0) : ∀ j, s.err j = 0 := by
  intro j
  exact (foldl_zero _ _ h).2 _ (List.mem_append_left _ (List.mem_map_of_mem (List.mem_finRange j)))

theorem Inv.reset [Fintype N] {b : N} {h : Heap n N V} {ps : Multiset (Pkt N V)} (hi : Inv c b h ps) (f : Fin n → Bool) :
    Inv c b { h with changed := f } ps := ⟨hi.wf, hi.ledger, hi.reach⟩

/-- The storage is accounted for. -/
def Sound [Fintype N] (c : Env) (h : Heap n N V) : Prop := h.world.WF ∧ h.world.made = h.world.freed + (graphHeld c h + waiting c h)

theorem postponing_pass [Fintype N] [DecidableEq N] {o : Ops V} {res : Nat → Bool} {addr : N → Nat} {hn : 0 < n} {b : N} {h h' : Heap n N V}
    {k : Nat} {e : Int} (hi : Inv c b h 0) (hp : Pass (postponing c o res addr hn) (.visit b) h h' k e) : Inv c b h' 0 := by
  rcases hp with ⟨rfl, -⟩ | ⟨x, late, hx, hd, rfl, -⟩
  · exact hi
  · exact postponing_inv (hi.reset _) _ (Rover.done_bag hn hx hd)

theorem absorbing_pass [Fintype N] [DecidableEq N] {o : Ops V} {res : Nat → Bool} {addr : N → Nat} (ha : Function.Injective addr) {hn : 0 < n}
    {b : N} {h h' : Heap n N V} {k : Nat} {e : Int} (hi : Inv c b h 0) (hp : Pass (absorbing c o res addr hn) b h h' k e) :
    Sound c h' ∧ (e = 0 → Inv c b h' 0) ∧ (e = 0 → k = 0 → ∀ m, h'.post m = []) := by
  rcases hp with ⟨rfl, -, he⟩ | ⟨x, late, hx, hd, rfl, rfl, rfl⟩
  · exact ⟨⟨hi.wf, by simpa using hi.ledger⟩, fun _ => hi, fun h => absurd h he⟩
  · have key := absorbing_inv ha (hi.reset _) _ (Rover.done_bag hn hx hd)
    dsimp only at key
    refine ⟨⟨key.wf, key.ledger⟩, fun he => ⟨key.wf, by simpa using key.ledger, key.reach (status_zero he)⟩, fun he hk => ?_⟩
    obtain ⟨f1, f2⟩ := key.front (status_zero he) (key.stop hk)
    have all : ∀ m, m ∈ x.g.seen (Build.lane hn (addr m)) := by
      intro m
      induction key.reach (status_zero he) m with
      | refl => simpa using f1
      | tail _ hl ih =>
        obtain ⟨g1, g2⟩ := f2 _ ih
        rcases hl with ⟨e, h1, rfl⟩ | ⟨e, h1, -⟩ | ⟨e, h1, -⟩
        · simpa using g2 e h1
        · rw [g1] at h1; simp at h1
        · simp at h1
    exact fun m => (f2 m (all m)).1

theorem iter_spec [Fintype N] [DecidableEq N] {o : Ops V} {res : Nat → Bool} {addr : N → Nat} (ha : Function.Injective addr) {hn : 0 < n}
    {b : N} {h h' : Heap n N V} {k : Nat} {e : Int} (hi : Inv c b h 0) (hp : Iter c o res addr hn b h h' k e) :
    Sound c h' ∧ (e = 0 → Inv c b h' 0) ∧ (e = 0 → k = 0 → ∀ m, h'.post m = []) := by
  obtain ⟨h₁, k₁, e₁, e₂, p1, p2, rfl⟩ := hp
  obtain ⟨s1, s2, s3⟩ := absorbing_pass ha (postponing_pass hi p1) p2
  refine ⟨s1, fun he => ?_, fun he => ?_⟩ <;> split_ifs at he with h1
  · exact absurd he h1
  · exact s2 he
  · exact absurd he h1
  · exact s3 he

theorem loop_spec [Fintype N] [DecidableEq N] {o : Ops V} {res : Nat → Bool} {addr : N → Nat} (ha : Function.Injective addr) {hn : 0 < n}
    {b : N} {h h' : Heap n N V} {k : Nat} {e : Int} (hp : Loop c o res addr hn b h h' k e) (hi : Inv c b h 0) :
    Sound c h' ∧ (e = 0 → Inv c b h' 0) ∧ (e = 0 → k = 0 → ∀ m, h'.post m = []) := by
  induction hp with
  | last h1 _ => exact iter_spec ha hi h1
  | more h1 _ _ ih => exact ih ((iter_spec ha hi h1).2.1 rfl)

/-! ## The end -/

theorem ready_inv [Fintype N] {b : N} {h : Heap n N V} (hr : Ready c b h) : Inv c b h 0 := by
  refine ⟨⟨hr.past, hr.exact.1⟩, ?_, fun m => ?_⟩
  · rw [hr.exact.2]
    have : waiting c h = 0 := by unfold waiting; simp [hr.half]
    simp [this]
  · have := hr.reach m
    induction this with
    | refl => exact .refl
    | tail _ hs ih =>
      refine ih.tail (.inl ?_)
      simpa using hs

theorem freeNodes_bal (c : Env) (h : Heap n N V) (ms : List N) (w : World) (x : Multiset (Nat × Nat)) :
    Bal w (freeNodes c h ms w) ((ms.map (held c h)).sum + x) x := by
  induction ms generalizing w with
  | nil => exact (Bal.refl w x).cast (by simp) rfl
  | cons m ms ih =>
    unfold freeNodes
    rw [List.foldl_cons]
    refine ((DedupAcc.freeEdges_bal c (h.out m) w (owned c.vFree (h.vertex m) + ((ms.map (held c h)).sum + x))).cast ?_ rfl).trans
      ((destroy_frame c c.vFree (h.vertex m) _ _).trans (ih _))
    simp only [List.map_cons, List.sum_cons, held]
    abel

theorem freeNodes_sticky (h : Heap n N V) (ms : List N) {w : World} (hw : w.err ≠ 0) : (freeNodes c h ms w).err = w.err := by
  induction ms generalizing w with
  | nil => rfl
  | cons m ms ih =>
    have h1 : (destroy c.fails c.vFree (h.vertex m) (freeEdges c (h.out m) w)).err = w.err := by
      rw [DedupAcc.destroy_sticky _ _ (by rw [DedupAcc.freeEdges_sticky _ hw]; exact hw), DedupAcc.freeEdges_sticky _ hw]
    unfold freeNodes
    rw [List.foldl_cons]
    exact (ih (by rw [h1]; exact hw)).trans h1

theorem destroy_made (d : Option Nat) (x : Option (Obj V)) (w : World) : (destroy c.fails d x w).made = w.made := by
  unfold destroy
  split
  · rfl
  · rfl

theorem freeEdges_made (es : List (Edge N V)) (w : World) : (freeEdges c es w).made = w.made := by
  unfold freeEdges SpawnAcc.freeLabels
  induction es generalizing w with
  | nil => rfl
  | cons e es ih => exact (ih _).trans (destroy_made _ _ _)

theorem freeNodes_made (h : Heap n N V) (ms : List N) (w : World) : (freeNodes c h ms w).made = w.made := by
  unfold freeNodes
  induction ms generalizing w with
  | nil => rfl
  | cons m ms ih => exact (ih _).trans ((destroy_made _ _ _).trans (freeEdges_made _ _))

theorem mem_labels {d : Nat} (hd : c.eFree = some d) {es : List (Edge N V)} {e : Edge N V} {l : Obj V} (he : e ∈ es) (hl : e.label = some l) :
    (l.id, d) ∈ labels c es := by
  induction es with
  | nil => simp at he
  | cons a es ih =>
    rw [labels_cons, Multiset.mem_add]
    rcases List.mem_cons.1 he with rfl | he
    · left; rw [hl, hd]; simp [owned]
    · exact .inr (ih he)

theorem half_done [DecidableEq N] {L : Type} {out inn₀ : N → List (L × N)} {addr : N → Nat} {hn : 0 < n} {b : N}
    {x : State n (Duplex.Pkt N L) (Trav.Job n N (N → List (L × N)))} (hx : Net.Reach (Duplex.half out addr hn) (b, none) (Trav.start inn₀) x)
    (hd : x.main = .done) (hk : x.g.killed = 0) (m : N) (hm : Reaches (fun m => (out m).map (·.2)) b m) : x.g.mem m = [] := by
  have hI : (Duplex.halfRover out inn₀ addr hn).I (Trav.start inn₀) := fun m => ⟨fun h => (by cases h), fun _ => rfl⟩
  have hi := Rover.inv_reach (W := Duplex.halfRover out inn₀ addr hn) (fun i => rfl) hI rfl _ (Rover.done_bag hn hx hd)
  obtain ⟨i, h⟩ := Rover.mem_visited.1 ((Rover.visited_iff hi (fun i => Duplex.half_stop _ (reach_bag hn hx) hk i) m).2 hm)
  have h' : m ∈ x.g.seen i := h
  rw [← (show Build.lane hn (addr m) = i from hi.home i m h)] at h'
  exact (hi.I m).1 h'

theorem sum_lists [Fintype N] [DecidableEq N] {ms : List N} (h : Lists ms) (f : N → Multiset (Nat × Nat)) : (ms.map f).sum = ∑ m, f m := by
  have : (Finset.univ : Finset N) = ms.toFinset := by ext m; simp [h.2 m]
  rw [this, List.sum_toFinset _ h.1]

theorem freeNow_bal [Fintype N] [DecidableEq N] (c : Env) (h : Heap n N V) {ms : List N} (hm : Lists ms) (w : World) :
    Bal w (freeNow c h ms w) (graphHeld c h + waiting c h) 0 := by
  unfold freeNow
  refine (freeNodes_bal c _ ms w 0).cast ?_ rfl
  rw [sum_lists hm, add_zero, graphHeld, waiting, ← Finset.sum_add_distrib]
  refine Finset.sum_congr rfl fun m _ => ?_
  simp only [held, labels_append]
  abel

theorem freeNow_freed [Fintype N] [DecidableEq N] (c : Env) (h : Heap n N V) {ms : List N} (hm : Lists ms) (w : World) :
    (freeNow c h ms w).freed = w.freed + (graphHeld c h + waiting c h) := by
  have h1 := (freeNow_bal c h hm w).ledger
  rw [show (freeNow c h ms w).made = w.made from freeNodes_made _ _ _, add_zero, add_assoc] at h1
  exact (add_left_cancel h1).symm

end Cru.PostponeAcc
