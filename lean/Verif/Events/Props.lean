import Verif.Events.Model
import Mathlib.Data.List.Nodup
import Mathlib.Data.List.Induction

/-!
# C21, C22: event handlers
-/

namespace Verif.Events

/-! ## Specification -/

/-- What happened, as the user sees it: registrations, and events. -/
inductive Item where
  | change (c : Change)
  | event (k : Key)

/-- The handler that is in force for `k` after a history, latest item first: the last one that was set,
unless it was cleared since or it was a `once` handler and there was an event since. -/
def inForce (k : Key) : List Item → Option Handler
  | [] => none
  | .change (.set k' h) :: l => if k' = k then some h else inForce k l
  | .change (.clear k') :: l => if k' = k then none else inForce k l
  | .event k' :: l =>
    if k' = k then
      match inForce k l with
      | some h => if h.once then none else some h
      | none => none
    else inForce k l

/-- History of a sequence of operations, latest first, and the callbacks that have to run: for each
event the handler in force. What a callback (or another thread during it) changes comes after the event;
without a handler there is no callback. -/
def specStep (s : List Item × List (Key × Handler)) : Op → List Item × List (Key × Handler)
  | .change c => (.change c :: s.1, s.2)
  | .event k body =>
    match inForce k s.1 with
    | none => (.event k :: s.1, s.2)
    | some h => ((body.map Item.change).reverse ++ .event k :: s.1, s.2 ++ [(k, h)])

def spec (ops : List Op) : List Item × List (Key × Handler) := ops.foldl specStep ([], [])

/-- the key a change concerns -/
def Change.key : Change → Key
  | .set k _ => k
  | .clear k => k

/-- No change of the handlers of an event while a persistent handler for that very event runs. -/
def calm (s : St) : Op → Prop
  | .change _ => True
  | .event k body => ∀ h, s.map k = some h → h.once = false → ∀ c ∈ body, c.key ≠ k

def Calm (ops : List Op) : Prop := ∀ pre op post, ops = pre ++ op :: post → calm (run pre) op

/-! ## C21 -/

theorem inForce_changes (k : Key) (m : Map) (l : List Item) (body : List Change)
    (h : ∀ k, m k = inForce k l) :
    body.foldl Map.change m k = inForce k ((body.map Item.change).reverse ++ l) := by
  induction body using List.reverseRecOn generalizing k with
  | nil => exact h k
  | append_singleton body c ih =>
    rw [List.foldl_append, List.map_append, List.reverse_append]
    simp only [List.foldl_cons, List.foldl_nil, List.map_cons, List.map_nil, List.reverse_cons,
      List.reverse_nil, List.nil_append, List.cons_append]
    cases c with
    | set k' h' =>
      simp only [Map.change, inForce, Function.update_apply]
      by_cases hk : k = k'
      · simp [hk]
      · rw [if_neg hk, if_neg (Ne.symm hk)]; exact ih k
    | clear k' =>
      simp only [Map.change, inForce, Function.update_apply]
      by_cases hk : k = k'
      · simp [hk]
      · rw [if_neg hk, if_neg (Ne.symm hk)]; exact ih k

theorem foldl_change_of_ne (k : Key) (m : Map) (body : List Change) (h : ∀ c ∈ body, c.key ≠ k) :
    body.foldl Map.change m k = m k := by
  induction body generalizing m with
  | nil => rfl
  | cons c body ih =>
    rw [List.foldl_cons, ih _ (fun c hc => h c (by simp [hc]))]
    have := h c (by simp)
    cases c <;> simp only [Change.key] at this <;> simp [Map.change, Function.update_of_ne (Ne.symm this)]

theorem foldl_change_congr (k : Key) (body : List Change) {m m' : Map} (h : m k = m' k) :
    body.foldl Map.change m k = body.foldl Map.change m' k := by
  induction body generalizing m m' with
  | nil => exact h
  | cons c body ih =>
    rw [List.foldl_cons, List.foldl_cons]
    apply ih
    cases c <;> simp only [Map.change, Function.update_apply] <;> split <;> first | rfl | exact h

/-- C21: for each event exactly the handler in force runs: the last one set, if it was not cleared and
not a `once` handler used up already. For all histories, including changes made inside `once` handlers,
and changes of other events inside persistent ones. Missing for the full claim: a persistent handler that
changes (or another thread that changes) its own registration while it runs, see `C21_negated`. -/
theorem C21_in_force_partial (ops : List Op) (hc : Calm ops) : (run ops).log = (spec ops).2 := by
  suffices h : (run ops).log = (spec ops).2 ∧ ∀ k, (run ops).map k = inForce k (spec ops).1 from h.1
  induction ops using List.reverseRecOn with
  | nil => exact ⟨rfl, fun k => rfl⟩
  | append_singleton ops op ih =>
    have hc' : Calm ops := fun pre op' post e => hc pre op' (post ++ [op]) (by simp [e])
    obtain ⟨i1, i2⟩ := ih hc'
    have hop : calm (run ops) op := hc ops op [] rfl
    have e1 : run (ops ++ [op]) = step (run ops) op := by simp [run]
    have e2 : spec (ops ++ [op]) = specStep (spec ops) op := by simp [spec]
    rw [e1, e2]
    clear e1 e2 ih hc
    generalize run ops = s at *
    generalize spec ops = t at *
    cases op with
    | change c =>
      refine ⟨i1, fun k => ?_⟩
      have := inForce_changes k s.map t.1 [c] i2
      simpa [step, specStep] using this
    | event k body =>
      simp only [step, St.event, specStep]
      have ik := i2 k
      cases hk : s.map k with
      | none =>
        rw [hk] at ik
        rw [← ik]
        refine ⟨i1, fun k' => ?_⟩
        simp only [inForce]
        split
        · rename_i e; subst e; rw [← ik]; exact hk
        · exact i2 k'
      | some h =>
        rw [hk] at ik
        rw [← ik]
        refine ⟨by simp [i1], fun k' => ?_⟩
        have base : h.once = true → ∀ k', Function.update s.map k none k' = inForce k' (.event k :: t.1) := by
          intro ho k'
          simp only [inForce, Function.update_apply]
          by_cases e : k' = k
          · subst e; rw [if_pos rfl, if_pos rfl, ← ik]; simp [ho]
          · rw [if_neg e, if_neg (Ne.symm e)]; exact i2 k'
        cases ho : h.once with
        | true =>
          dsimp only
          rw [if_pos ho]
          exact inForce_changes k' _ _ body (base ho)
        | false =>
          have hne := hop h hk ho
          dsimp only
          rw [if_neg (by simp [ho])]
          -- put the handler back first: the changes do not concern it
          have base2 : ∀ k', s.map k' = inForce k' (.event k :: t.1) := by
            intro k'
            simp only [inForce]
            split
            · rename_i e; subst e; rw [← ik]; simp [ho, hk]
            · exact i2 k'
          have swap : Function.update (body.foldl Map.change (Function.update s.map k none)) k (some h) =
              body.foldl Map.change s.map := by
            funext k2
            by_cases e : k2 = k
            · subst e
              rw [Function.update_self, foldl_change_of_ne k2 _ body hne, hk]
            · rw [Function.update_of_ne e]
              exact foldl_change_congr k2 body (by rw [Function.update_of_ne e])
          rw [swap]
          exact inForce_changes k' _ _ body base2

/-- C21 fails: a persistent handler that clears its own registration is put back, and runs again. -/
theorem C21_negated :
    let k : Key := ⟨0, 3⟩
    (run [.change (.set k ⟨1, false⟩), .event k [.clear k], .event k []]).log =
      [(k, ⟨1, false⟩), (k, ⟨1, false⟩)] ∧
    (spec [.change (.set k ⟨1, false⟩), .event k [.clear k], .event k []]).2 = [(k, ⟨1, false⟩)] := by
  decide

/-- C21 fails: a handler set while a persistent handler for the same event runs is lost. -/
theorem C21_negated_replace :
    let k : Key := ⟨0, 3⟩
    (run [.change (.set k ⟨1, false⟩), .event k [.set k ⟨2, false⟩], .event k []]).log =
      [(k, ⟨1, false⟩), (k, ⟨1, false⟩)] ∧
    (spec [.change (.set k ⟨1, false⟩), .event k [.set k ⟨2, false⟩], .event k []]).2 =
      [(k, ⟨1, false⟩), (k, ⟨2, false⟩)] := by
  decide

/-- registrations made by an operation -/
def Change.sets : Change → List Nat
  | .set _ h => [h.n]
  | .clear _ => []

def Op.sets : Op → List Nat
  | .change c => c.sets
  | .event _ body => body.flatMap Change.sets

/-- Each registration is in force for at most one key, and a `once` handler that is still registered has
not run. `seen` are the registrations so far. -/
structure OnceInv (seen : List Nat) (log : List (Key × Handler)) (m : Map) : Prop where
  seen_map : ∀ k h, m k = some h → h.n ∈ seen
  seen_log : ∀ p ∈ log, p.2.n ∈ seen
  inj : ∀ k k' h h', m k = some h → m k' = some h' → h.n = h'.n → k = k'
  fresh : ∀ k h, m k = some h → ∀ p ∈ log, p.2.n = h.n → p.2 = h ∧ h.once = false
  once : log.Pairwise fun p q => p.2.n = q.2.n → p.2 = q.2 ∧ p.2.once = false

theorem OnceInv.clear {seen : List Nat} {log : List (Key × Handler)} {m : Map}
    (hi : OnceInv seen log m) (k : Key) : OnceInv seen log (Function.update m k none) := by
  have sub : ∀ k' h, Function.update m k none k' = some h → m k' = some h := by
    intro k' h e
    rw [Function.update_apply] at e
    split at e
    · cases e
    · exact e
  exact ⟨fun k' h e => hi.seen_map k' h (sub k' h e), hi.seen_log,
    fun k1 k2 h1 h2 e1 e2 => hi.inj k1 k2 h1 h2 (sub _ _ e1) (sub _ _ e2),
    fun k' h e => hi.fresh k' h (sub _ _ e), hi.once⟩

theorem OnceInv.change {seen : List Nat} {log : List (Key × Handler)} {m : Map} (hi : OnceInv seen log m)
    {c : Change} (hc : ∀ n ∈ c.sets, n ∉ seen) :
    OnceInv (seen ++ c.sets) log (m.change c) ∧
      ∀ x ∈ seen, (∀ k h, m k = some h → h.n ≠ x) → ∀ k h, m.change c k = some h → h.n ≠ x := by
  cases c with
  | clear k =>
    have := hi.clear k
    simp only [Change.sets, List.append_nil, Map.change]
    refine ⟨this, fun x _ hx k' h e => ?_⟩
    rw [Function.update_apply] at e
    split at e
    · cases e
    · exact hx _ _ e
  | set k h =>
    have hn : h.n ∉ seen := hc h.n (by simp [Change.sets])
    simp only [Change.sets, Map.change]
    refine ⟨⟨?_, fun p hp => by simp [hi.seen_log p hp], ?_, ?_, hi.once⟩, ?_⟩
    · intro k' h' e
      rw [Function.update_apply] at e
      split at e
      · cases e; simp
      · simp [hi.seen_map _ _ e]
    · intro k1 k2 h1 h2 e1 e2 he
      rw [Function.update_apply] at e1 e2
      split at e1 <;> split at e2
      · simp_all
      · cases e1; exact absurd (he ▸ hi.seen_map _ _ e2) hn
      · cases e2; exact absurd (he ▸ hi.seen_map _ _ e1) hn
      · exact hi.inj _ _ _ _ e1 e2 he
    · intro k' h' e p hp he
      rw [Function.update_apply] at e
      split at e
      · cases e; exact absurd (he ▸ hi.seen_log p hp) hn
      · exact hi.fresh _ _ e p hp he
    · intro x hx hall k' h' e
      rw [Function.update_apply] at e
      split at e
      · cases e; intro he; exact hn (he ▸ hx)
      · exact hall _ _ e

theorem OnceInv.changes {seen : List Nat} {log : List (Key × Handler)} {m : Map}
    (hi : OnceInv seen log m) (body : List Change)
    (hn : (seen ++ body.flatMap Change.sets).Nodup) :
    OnceInv (seen ++ body.flatMap Change.sets) log (body.foldl Map.change m) ∧
      ∀ x ∈ seen, (∀ k h, m k = some h → h.n ≠ x) →
        ∀ k h, body.foldl Map.change m k = some h → h.n ≠ x := by
  induction body generalizing seen m with
  | nil =>
    rw [List.flatMap_nil, List.append_nil]
    exact ⟨hi, fun x _ h => h⟩
  | cons c body ih =>
    rw [List.flatMap_cons, ← List.append_assoc] at hn
    obtain ⟨c1, c2⟩ := hi.change (c := c) (by
      intro n hc hs
      have := (List.nodup_append.1 (List.nodup_append.1 hn).1).2.2
      exact this n hs n hc rfl)
    obtain ⟨i1, i2⟩ := ih c1 hn
    rw [List.flatMap_cons, ← List.append_assoc]
    exact ⟨i1, fun x hx h => i2 x (by simp [hx]) (c2 x hx h)⟩

theorem OnceInv.mono {seen seen' : List Nat} {log : List (Key × Handler)} {m : Map}
    (hi : OnceInv seen log m) (h : ∀ x ∈ seen, x ∈ seen') : OnceInv seen' log m :=
  ⟨fun k h' e => h _ (hi.seen_map k h' e), fun p hp => h _ (hi.seen_log p hp), hi.inj, hi.fresh, hi.once⟩

/-- C21: a `once` handler runs at most once per registration, in all histories, whatever handlers do
while they run. (Registrations are distinct: a `FnOnce` callback is moved into the registration.) -/
theorem C21_once (ops : List Op) (hn : (ops.flatMap Op.sets).Nodup) (h : Handler) (ho : h.once = true) :
    ((run ops).log.map fun p => p.2).count h ≤ 1 := by
  have key : OnceInv (ops.flatMap Op.sets) (run ops).log (run ops).map := by
    induction ops using List.reverseRecOn with
    | nil => exact ⟨by simp [run], by simp [run], by simp [run], by simp [run], by simp [run]⟩
    | append_singleton ops op ih =>
      simp only [List.flatMap_append, List.flatMap_cons, List.flatMap_nil, List.append_nil] at hn ⊢
      have hi := ih (List.nodup_append.1 hn).1
      rw [show run (ops ++ [op]) = step (run ops) op by simp [run]]
      generalize run ops = s at *
      generalize ops.flatMap Op.sets = seen at *
      cases op with
      | change c =>
        refine (hi.change (c := c) ?_).1
        intro n hc hs
        exact (List.nodup_append.1 hn).2.2 n hs n hc rfl
      | event k body =>
        simp only [step, St.event]
        cases hk : s.map k with
        | none => exact hi.mono (by intro x hx; simp [hx])
        | some h0 =>
          simp only [Op.sets] at hn ⊢
          have hc := hi.clear k
          have others : ∀ k' h', Function.update s.map k none k' = some h' → h'.n ≠ h0.n := by
            intro k' h' e he
            rw [Function.update_apply] at e
            split at e
            · cases e
            · rename_i hne
              exact hne (hi.inj _ _ _ _ e hk he)
          -- the log entry
          have hl : OnceInv seen (s.log ++ [(k, h0)]) (Function.update s.map k none) := by
            refine ⟨hc.seen_map, ?_, hc.inj, ?_, ?_⟩
            · intro p hp
              rcases List.mem_append.1 hp with hp | hp
              · exact hi.seen_log p hp
              · simp at hp; subst hp; exact hi.seen_map _ _ hk
            · intro k' h' e p hp he
              rcases List.mem_append.1 hp with hp | hp
              · exact hc.fresh _ _ e p hp he
              · simp at hp; subst hp; exact absurd he.symm (others _ _ e)
            · rw [List.pairwise_append]
              refine ⟨hi.once, by simp, ?_⟩
              intro p hp q hq he
              simp at hq; subst hq
              have := hi.fresh _ _ hk p hp he
              exact ⟨this.1, this.1 ▸ this.2⟩
          obtain ⟨b1, b2⟩ := hl.changes body hn
          have b3 := b2 h0.n (hi.seen_map _ _ hk) others
          cases ho : h0.once with
          | true => simpa using b1
          | false =>
            simp only [Bool.false_eq_true, if_false]
            refine ⟨?_, b1.seen_log, ?_, ?_, b1.once⟩
            · intro k' h' e
              rw [Function.update_apply] at e
              split at e
              · cases e; simp [hi.seen_map _ _ hk]
              · exact b1.seen_map _ _ e
            · intro k1 k2 h1 h2 e1 e2 he
              rw [Function.update_apply] at e1 e2
              split at e1 <;> split at e2
              · simp_all
              · cases e1; exact absurd he.symm (b3 _ _ e2)
              · cases e2; exact absurd he (b3 _ _ e1)
              · exact b1.inj _ _ _ _ e1 e2 he
            · intro k' h' e p hp he
              rw [Function.update_apply] at e
              split at e
              · cases e
                rcases List.mem_append.1 hp with hp | hp
                · exact hi.fresh _ _ hk p hp he
                · simp at hp; subst hp; exact ⟨rfl, ho⟩
              · exact b1.fresh _ _ e p hp he
  have hp : ((run ops).log.map fun p => p.2).Pairwise fun a b => a.n = b.n → a = b ∧ a.once = false := by
    rw [List.pairwise_map]; exact key.once
  generalize (run ops).log.map (fun p => p.2) = l at hp
  induction l with
  | nil => simp
  | cons a l ih =>
    obtain ⟨h1, h2⟩ := List.pairwise_cons.1 hp
    rw [List.count_cons]
    split
    · rename_i e
      have e : a = h := by simpa using e
      subst e
      have : l.count a = 0 := by
        rw [List.count_eq_zero]
        intro hm
        have := (h1 a hm rfl).2
        rw [ho] at this; cases this
      omega
    · exact ih h2

/-- Hypotheses met: a handler registers a `once` handler for another event while it runs. -/
example : let k : Key := ⟨0, 3⟩; let k' : Key := ⟨1, 3⟩
    let ops := [Op.change (.set k ⟨1, false⟩), .event k [.set k' ⟨2, true⟩], .event k' [], .event k' [],
      .event k [.clear k']]
    (ops.flatMap Op.sets).Nodup ∧
      (run ops).log = [(k, ⟨1, false⟩), (k', ⟨2, true⟩), (k, ⟨1, false⟩)] := by decide

/-! ## C22 -/

/-- Operations with nodes: `create n id` is the registration of node number `n` (never reused) with
internal id `id` (`AudioNodeIdProvider::get`, concrete_base.rs l.39-46, which reuses the ids of nodes
that were removed by the render thread); nothing happens to the event handlers then, nor when a node is
dropped (`mark_node_dropped`, l.330-347). -/
inductive NodeOp where
  | create (n id : Nat)
  | set (n kind : Nat) (h : Handler)
  | clear (n kind : Nat)
  | event (n kind : Nat)

/-- handlers, the id of each node, ghost: the owner of each id, the node that registered each handler -/
structure NodeSt where
  s : St := {}
  id : Nat → Nat := fun _ => 0
  owner : Nat → Option Nat := fun _ => none
  by_ : Key → Option Nat := fun _ => none
  /-- ghost: for each callback that ran: the node that registered it, the node of the event -/
  runs : List (Nat × Nat) := []

/-- The node's own id is used in the key of the event (`EventType::Ended(id)` and so on). A node only
acts while it owns its id. -/
def nodeStep (t : NodeSt) : NodeOp → Option NodeSt
  | .create n id => some { t with id := Function.update t.id n id
                                  owner := Function.update t.owner id (some n) }
  | .set n kind h =>
    if t.owner (t.id n) = some n then
      some { t with s := step t.s (.change (.set ⟨kind, t.id n⟩ h))
                    by_ := Function.update t.by_ ⟨kind, t.id n⟩ (some n) }
    else none
  | .clear n kind =>
    if t.owner (t.id n) = some n then
      some { t with s := step t.s (.change (.clear ⟨kind, t.id n⟩))
                    by_ := Function.update t.by_ ⟨kind, t.id n⟩ none }
    else none
  | .event n kind =>
    if t.owner (t.id n) = some n then
      match t.s.map ⟨kind, t.id n⟩ with
      | none => some t
      | some _ => some { t with s := step t.s (.event ⟨kind, t.id n⟩ [])
                                runs := t.runs ++ [((t.by_ ⟨kind, t.id n⟩).getD 0, n)] }
    else none

def nodeRun (t : NodeSt) : List NodeOp → Option NodeSt
  | [] => some t
  | op :: ops => (nodeStep t op).bind fun t => nodeRun t ops

/-- C22 fails: the handler of node 1 (dropped without the handler being cleared or having run) is invoked
for an event of node 2, which got the same internal id. -/
theorem C22_negated :
    ∃ t, nodeRun {} [.create 1 12, .set 1 0 ⟨5, true⟩, .create 2 12, .event 2 0] = some t ∧
      t.runs = [(1, 2)] := ⟨_, rfl, rfl⟩

/-- No handlers are left behind under an id that is given to a new node. -/
def clean (t : NodeSt) : NodeOp → Prop
  | .create _ id => ∀ kind, t.s.map ⟨kind, id⟩ = none
  | _ => True

def Clean : NodeSt → List NodeOp → Prop
  | _, [] => True
  | t, op :: ops => clean t op ∧ ∀ t', nodeStep t op = some t' → Clean t' ops

/-- C22: if handlers are cleared (or have run, `once`) before the id of their node is reused, then a
handler is only invoked for events of the node it was registered on. Missing: see `C22_negated`. -/
theorem C22_own_events_partial {ops : List NodeOp} {t : NodeSt} (hc : Clean {} ops)
    (h : nodeRun {} ops = some t) : ∀ p ∈ t.runs, p.1 = p.2 := by
  let I : NodeSt → Prop := fun t => (∀ p ∈ t.runs, p.1 = p.2) ∧
    ∀ k h, t.s.map k = some h → ∃ n, t.by_ k = some n ∧ t.owner k.id = some n
  have hstep : ∀ t t' op, I t → clean t op → nodeStep t op = some t' → I t' := by
    rintro t t' op ⟨i1, i2⟩ hc h
    cases op with
    | create n id =>
      simp only [nodeStep, Option.some.injEq] at h
      subst h
      refine ⟨i1, fun k h e => ?_⟩
      have hne : k.id ≠ id := by
        intro e'
        have := hc k.kind
        rw [← e'] at this
        rw [show (⟨k.kind, k.id⟩ : Key) = k from rfl] at this
        simp only at e
        rw [this] at e; cases e
      simp only [Function.update_of_ne hne]
      exact i2 k h e
    | set n kind h0 =>
      simp only [nodeStep] at h
      split at h
      · rename_i ho
        simp only [Option.some.injEq] at h
        subst h
        refine ⟨i1, fun k h e => ?_⟩
        simp only [step, Map.change, Function.update_apply] at e ⊢
        split at e
        · rename_i hk
          subst hk
          exact ⟨n, by simp, ho⟩
        · rename_i hk
          simp only [if_neg hk]
          exact i2 k h e
      · cases h
    | clear n kind =>
      simp only [nodeStep] at h
      split at h
      · simp only [Option.some.injEq] at h
        subst h
        refine ⟨i1, fun k h e => ?_⟩
        simp only [step, Map.change, Function.update_apply] at e ⊢
        split at e
        · cases e
        · rename_i hk
          simp only [if_neg hk]
          exact i2 k h e
      · cases h
    | event n kind =>
      simp only [nodeStep] at h
      split at h
      · rename_i ho
        split at h
        · simp only [Option.some.injEq] at h
          subst h
          exact ⟨i1, i2⟩
        · rename_i h0 hm
          simp only [Option.some.injEq] at h
          subst h
          obtain ⟨n', hb, hn'⟩ := i2 _ _ hm
          have : n' = n := by
            rw [ho] at hn'; exact (Option.some.inj hn').symm
          subst this
          refine ⟨?_, fun k h e => ?_⟩
          · intro p hp
            rcases List.mem_append.1 hp with hp | hp
            · exact i1 p hp
            · simp at hp; subst hp; simp [hb]
          · simp only [step, St.event, hm, List.foldl_nil] at e
            apply i2 k h
            split at e
            · rw [Function.update_apply] at e
              split at e
              · cases e
              · exact e
            · rw [Function.update_apply] at e
              split at e
              · rename_i hk; subst hk; cases e; exact hm
              · rename_i hk
                rwa [Function.update_of_ne hk] at e
      · cases h
  have hrun : ∀ ops t t', I t → Clean t ops → nodeRun t ops = some t' → I t' := by
    intro ops
    induction ops with
    | nil => intro t t' hi _ h; simp only [nodeRun, Option.some.injEq] at h; subst h; exact hi
    | cons op ops ih =>
      intro t t' hi hc h
      simp only [nodeRun, Option.bind_eq_some_iff] at h
      obtain ⟨t1, h1, h2⟩ := h
      exact ih t1 t' (hstep t t1 op hi hc.1 h1) (hc.2 t1 h1) h2
  exact (hrun ops {} t ⟨by simp, by intro k h e; cases e⟩ hc h).1

/-- Hypotheses met: the id of node 1 is reused after its handler has run. -/
example : Clean {} [.create 1 12, .set 1 0 ⟨5, true⟩, .event 1 0, .create 2 12, .set 2 0 ⟨6, true⟩, .event 2 0] ∧
    (nodeRun {} [.create 1 12, .set 1 0 ⟨5, true⟩, .event 1 0, .create 2 12, .set 2 0 ⟨6, true⟩,
      .event 2 0]).map (·.runs) = some [(1, 1), (2, 2)] := by
  refine ⟨?_, by decide⟩
  simp [Clean, clean, nodeStep, step, St.event, Map.change, Function.update_apply]

end Verif.Events
