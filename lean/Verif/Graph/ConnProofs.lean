import Verif.Graph.SystemProps

/-!
# Invariant relating API calls, control side administration and connections of the render graph
-/

namespace Verif.Render

open Verif.Graph Relation

variable {P S M : Type} (sem : Sem P S M)

/-- connections of a node in the render graph -/
def gE (g : RGraph P S) (i : Nat) : List Edge :=
  match g.slot i with
  | some n => n.edges
  | none => []

/-- effect of one message on the number of parallel connections `e` of node `i` -/
def cntStep (i : Nat) (e : Edge) (k : Nat) : Msg P M → Nat
  | .register id _ _ _ _ _ => if id = i then 0 else k
  | .connect src _ e' _ => if src = i ∧ e' = e then k + 1 else k
  | .disconnect src _ e' => if src = i ∧ e' = e then 0 else k
  | _ => k

/-- ... of a list of messages -/
def cnt (i : Nat) (e : Edge) (k : Nat) (ms : List (Msg P M)) : Nat := ms.foldl (cntStep i e) k

theorem count_filter_ne (l : List Edge) (e e' : Edge) :
    (l.filter fun x => decide (x.dst ≠ e'.dst ∨ x.out ≠ e'.out ∨ x.port ≠ e'.port)).count e =
      if e' = e then 0 else l.count e := by
  split
  · rename_i h; subst h
    rw [List.count_eq_zero]
    intro h
    simpa using (List.mem_filter.1 h).2
  · rename_i h
    rw [List.count_filter (p := fun x : Edge => decide (x.dst ≠ e'.dst ∨ x.out ≠ e'.out ∨ x.port ≠ e'.port))]
    by_contra hc
    apply h
    simp only [ne_eq, decide_eq_true_eq, not_or, not_not] at hc
    obtain ⟨a, b, c⟩ := e; obtain ⟨a', b', c'⟩ := e'
    simp_all

theorem handle_cnt {g g' : RGraph P S} {m : Msg P M} (h : g.handle sem m = some g') (i : Nat)
    (e : Edge) : (gE g' i).count e = cntStep i e ((gE g i).count e) m := by
  have hget : ∀ {k n}, g.get k = some n → g.slot k = some n := by
    intro k n hk; unfold RGraph.get at hk; split at hk
    · exact hk
    · simp at hk
  have hput : ∀ {k : Nat} {n n' : Node P S}, g.get k = some n → n'.edges = n.edges →
      gE (g.put k (some n')) i = gE g i := by
    intro k n n' hk he
    simp only [gE, RGraph.put]
    by_cases hi : i = k
    · subst hi; rw [hget hk]; simp [he]
    · simp [hi]
  cases m with
  | register id tag proc nin nout cfg =>
    simp only [RGraph.handle, Option.some.injEq] at h
    subst h
    simp only [gE, RGraph.addNode, cntStep]
    by_cases hi : i = id
    · subst hi; simp
    · simp [hi, Ne.symm hi]
  | connect src stag e' dtag =>
    simp only [RGraph.handle, RGraph.addEdge] at h
    split at h
    · rename_i n hn
      cases h
      simp only [gE, RGraph.put, cntStep]
      by_cases hi : i = src
      · subst hi
        simp only [if_true, hget hn, List.count_append, List.count_singleton, true_and]
        by_cases he : e' = e
        · simp [he]
        · simp [he]
      · simp [hi, Ne.symm hi]
    · simp at h
  | disconnect src stag e' =>
    simp only [RGraph.handle, RGraph.removeEdge] at h
    split at h
    · rename_i n hn
      cases h
      simp only [gE, RGraph.put, cntStep]
      by_cases hi : i = src
      · subst hi
        simp only [if_true, hget hn, true_and]
        exact count_filter_ne _ _ _
      · simp [hi, Ne.symm hi]
    · simp at h
  | dropped id tag =>
    simp only [RGraph.handle, RGraph.markDropped] at h
    split at h
    · rename_i hcap
      split at h
      · rename_i n hn
        cases h
        rw [hput (k := id) (n := n) (by simp [RGraph.get, hcap]; exact hn)] <;> rfl
      · cases h; rfl
    · simp at h
  | breaker id tag =>
    simp only [RGraph.handle, RGraph.markBreaker, Option.map_eq_some_iff] at h
    obtain ⟨n, hn, rfl⟩ := h
    rw [hput hn] <;> rfl
  | post id tag x =>
    simp only [RGraph.handle, RGraph.routeMessage, Option.bind_eq_some_iff, Option.map_eq_some_iff] at h
    obtain ⟨n, hn, q, hq, rfl⟩ := h
    rw [hput hn] <;> rfl
  | setCfg id tag c =>
    simp only [RGraph.handle, RGraph.setCfg, Option.map_eq_some_iff] at h
    obtain ⟨n, hn, rfl⟩ := h
    rw [hput hn] <;> rfl

/-- nodes with a live handle keep their connections to nodes with a live handle during the loop -/
theorem loop_count (hp : NoPanic sem) {L : List Nat} (hL : L.Nodup) (todo : List Nat)
    (g g' : RGraph P S) (hsub : ∀ i ∈ todo, i ∈ L) (hnd : todo.Nodup)
    (h : RGraph.LoopInv L todo g) (hf : RGraph.foldOpt (RGraph.renderNode sem) todo g = some g')
    (k d : Nat) (n t : Node P S) (hn : g.slot k = some n) (hk : n.dropped = false)
    (ht : g.slot d = some t) (hd : t.dropped = false) :
    ∃ n', g'.slot k = some n' ∧ n'.dropped = false ∧ n'.breaker = n.breaker ∧ n'.tag = n.tag ∧
      ∀ e, e.dst = d → n'.edges.count e = n.edges.count e := by
  induction todo generalizing g n t with
  | nil =>
    simp only [RGraph.foldOpt, Option.some.injEq] at hf; subst hf
    exact ⟨n, hn, hk, rfl, rfl, fun _ _ => rfl⟩
  | cons j todo ih =>
    obtain ⟨nj, g1, hnj, hself, hr, hs, h1⟩ := RGraph.loop_step sem hL (hsub j (by simp)) hnd h
    simp only [RGraph.foldOpt, hr] at hf
    have hproc : (g.process sem j nj).1.edges = nj.edges := by
      rcases RGraph.process_cases sem g j nj with ⟨p, outs, tail, _, _, h3⟩ | ⟨h3, _⟩
      · rw [h3]
      · exact absurd h3 (hp.1 _ _ _ _)
    -- one step for a node with live handle
    have step : ∀ (q : Nat) (m : Node P S), g.slot q = some m → m.dropped = false →
        ∃ m', g1.slot q = some m' ∧ m'.dropped = false ∧ m'.breaker = m.breaker ∧ m'.tag = m.tag ∧
          ∀ e, e.dst = d → m'.edges.count e = m.edges.count e := by
      intro q m hm hq
      by_cases hqj : q = j
      · subst hqj
        rw [hm] at hnj; cases hnj
        have hnf : g.freed sem q nj = false := by
          cases hfr : g.freed sem q nj with
          | false => rfl
          | true => have := freed_dropped sem hp hfr; rw [hq] at this; simp at this
        have := hs.self
        rw [hnf] at this
        simp only [Bool.false_eq_true, if_false] at this
        obtain ⟨r1, r2, r3, r4, r5⟩ := RGraph.process_rest sem (g := g) q nj
        exact ⟨_, this, r3.trans hq, r4, r1, fun e _ => by rw [hproc]⟩
      · obtain ⟨m', a, b1, b2, b3, b4, b5, b6, b7, b8, _⟩ := hs.some q m hqj hm
        refine ⟨m', a, b5.trans hq, b6, b1, ?_⟩
        intro e he
        rw [b8]
        split
        · rename_i hfr
          have hdj : d ≠ j := by
            rintro rfl
            rw [ht] at hnj; cases hnj
            have := freed_dropped sem hp hfr
            rw [hd] at this; simp at this
          rw [List.count_filter (p := fun e : Edge => decide (e.dst ≠ j))]
          simpa [he] using hdj
        · rfl
    obtain ⟨n1, a1, a2, a3, a4, a5⟩ := step k n hn hk
    obtain ⟨t1, c1, c2, _⟩ := step d t ht hd
    obtain ⟨n', d1, d2, d3, d4, d5⟩ := ih g1 (fun i hi => hsub i (by simp [hi]))
      (List.nodup_cons.1 hnd).2 h1 hf n1 t1 a1 a2 c1 c2
    exact ⟨n', d1, d2, d3.trans a3, d4.trans a4, fun e he => (d5 e he).trans (a5 e he)⟩

/-- effect of a quantum on a connection between nodes with live handles, and on the breaker flag -/
theorem quantum_count (hp : NoPanic sem) {g g' : RGraph P S} (w : WF g) {o : S}
    (hr : g.render sem = some (g', o)) (k d : Nat) (n t : Node P S) (hn : g.slot k = some n)
    (hk : n.dropped = false) (hb : n.breaker = false)
    (ht : g.slot d = some t) (hd : t.dropped = false) :
    ∃ n', g'.slot k = some n' ∧ n'.breaker = false ∧ n'.tag = n.tag ∧
      ∀ e, e.dst = d → n'.edges.count e = n.edges.count e := by
  obtain ⟨g1, g2, h1, w1, h2, h3, h4, h5⟩ := RGraph.render_spec sem w
  obtain ⟨g1', e1, _, _, _, _, _, e7⟩ := RGraph.orderedGraph_spec w
  rw [h1] at e1; cases e1
  have hn1 : g1.slot k = some n := by
    rcases e7 k n hn with h | ⟨_, h, _⟩
    · exact h
    · rw [hb] at h; simp at h
  obtain ⟨t1, ht1, hd1⟩ : ∃ t1, g1.slot d = some t1 ∧ t1.dropped = false := by
    rcases e7 d t ht with h | ⟨h, _⟩
    · exact ⟨t, h, hd⟩
    · exact ⟨_, h, hd⟩
  obtain ⟨n', c1, c2, c3, c4, c5⟩ := loop_count sem hp w1.nodup g1.ordered g1 g2 (fun _ h => h)
    w1.nodup (RGraph.wf_loopInv w1) h2 k d n t1 hn1 hk ht1 hd1
  rw [h5] at hr
  cases hd0 : g2.slot 0 with
  | none => rw [hd0] at hr; simp at hr
  | some d0 =>
    rw [hd0] at hr
    simp only [Option.bind_some, Option.map_eq_some_iff, Prod.mk.injEq] at hr
    obtain ⟨o', _, rfl, _⟩ := hr
    exact ⟨n', c1, c3.trans hb, c4, c5⟩

/-- a quantum neither creates nodes nor changes tags or breaker flags -/
theorem quantum_breaker {g g' : RGraph P S} (w : WF g) {o : S}
    (hr : g.render sem = some (g', o)) (k : Nat) (n' : Node P S) (hn' : g'.slot k = some n') :
    ∃ n, g.slot k = some n ∧ n'.tag = n.tag ∧ n'.breaker = n.breaker := by
  obtain ⟨g1, g2, h1, w1, h2, h3, h4, h5⟩ := RGraph.render_spec sem w
  obtain ⟨g1', e1, _, _, _, _, e6, e7⟩ := RGraph.orderedGraph_spec w
  rw [h1] at e1; cases e1
  obtain ⟨f1, f2, f3⟩ := RGraph.loop_fate sem w1.nodup g1.ordered g1 g2 (fun _ h => h) w1.nodup
    (RGraph.wf_loopInv w1) h2
  rw [h5] at hr
  cases hd0 : g2.slot 0 with
  | none => rw [hd0] at hr; simp at hr
  | some d0 =>
    rw [hd0] at hr
    simp only [Option.bind_some, Option.map_eq_some_iff, Prod.mk.injEq] at hr
    obtain ⟨o', _, rfl, _⟩ := hr
    simp only at hn'
    cases hs : g.slot k with
    | none => rw [f1 k (e6 k hs)] at hn'; simp at hn'
    | some n =>
      obtain ⟨n1, hn1, ht1, hb1⟩ : ∃ n1, g1.slot k = some n1 ∧ n1.tag = n.tag ∧ n1.breaker = n.breaker := by
        rcases e7 k n hs with h | ⟨h, _⟩
        · exact ⟨n, h, rfl, rfl⟩
        · exact ⟨_, h, rfl, rfl⟩
      refine ⟨n, rfl, ?_⟩
      by_cases hi : k ∈ g1.ordered
      · obtain ⟨ga, na, a1, a2, a3, a4, a5, a6, a7, a8, a9, a10, a11, a12⟩ := f3 k n1 hi hn1
        split at a12
        · rw [hn'] at a12; simp at a12
        · obtain ⟨m, b1, b2, b3, b4, b5, b6, b7, b8⟩ := a12
          rw [hn'] at b1; cases b1
          exact ⟨b2.trans ht1, b7.trans hb1⟩
      · obtain ⟨m, c0, c1, c2, c3, c4, c5, c6, c7, c8⟩ := f2 k n1 hi hn1
        rw [hn'] at c0; cases c0
        exact ⟨c1.trans ht1, c6.trans hb1⟩

/-- if an id is unknown and will not be registered, no pending message connects to it -/
theorem walk_no_connect {A L : LMap} {ms : List (Msg P M)} (h : Walk A ms L) {id : Nat}
    (hA : A id = none) (hr : id ∉ regIds ms) :
    ∀ src stag e dtag, Msg.connect src stag e dtag ∈ ms → e.dst ≠ id := by
  induction ms generalizing A with
  | nil => simp
  | cons m ms ih =>
    have hr' : id ∉ regIds ms := by cases m <;> simp_all [regIds]
    have hA' : msgEff A m id = none := by
      cases m with
      | register id' tag proc nin nout cfg =>
        have : id ≠ id' := by intro h; simp [regIds, h] at hr
        simpa [msgEff, this] using hA
      | dropped id' tag => simp only [msgEff]; split <;> simp [hA]
      | connect => exact hA
      | disconnect => exact hA
      | breaker => exact hA
      | post => exact hA
      | setCfg => exact hA
    intro src stag e dtag hm
    simp only [List.mem_cons] at hm
    rcases hm with rfl | hm
    · rintro rfl
      obtain ⟨_, ni, no, h1, _⟩ := h.1
      rw [hA] at h1; simp at h1
    · exact ih h.2 hA' hr' src stag e dtag hm

theorem cnt_zero {i : Nat} {e : Edge} {ms : List (Msg P M)}
    (h : ∀ src stag e' dtag, Msg.connect src stag e' dtag ∈ ms → e' ≠ e) : cnt i e 0 ms = 0 := by
  induction ms with
  | nil => rfl
  | cons m ms ih =>
    have hm : cntStep i e 0 m = 0 := by
      cases m with
      | connect src stag e' dtag =>
        have := h src stag e' dtag (by simp)
        simp [cntStep, this]
      | register => simp [cntStep]
      | disconnect => simp [cntStep]
      | dropped => rfl
      | breaker => rfl
      | post => rfl
      | setCfg => rfl
    simp only [cnt, List.foldl_cons, hm]
    exact ih fun src stag e' dtag hx => h src stag e' dtag (by simp [hx])

/-! ## The number of connections requested through the API -/

/-- effect of one API call on the number of connections from output `out` of `a` to input `inp` of
`b`: `connect` adds one, a `disconnect` of `a` whose selection covers the connection removes all.
(`live`: the handles that exist; calls on handles that do not exist are impossible.) -/
def callStep (live : List Handle) (a b : Handle) (out inp k : Nat) : Op P M → Nat
  | .connect a' b' o i =>
    if a' = a ∧ b' = b ∧ o = out ∧ i = inp ∧ a ∈ live ∧ b ∈ live ∧ out < a.nout ∧ inp < b.nin
    then k + 1 else k
  | .disconnect a' o d i =>
    if a' = a ∧ (o = none ∨ o = some out) ∧ (d = none ∨ d = some b.id) ∧ (i = none ∨ i = some inp)
    then 0 else k
  | _ => k

/-- number of `connect` calls from `a`/`out` to `b`/`inp` since the last `disconnect` call that covers
this connection, in the history `ops` starting in state `s` -/
def calls (a b : Handle) (out inp : Nat) : List (Op P M) → Sys P S M → Nat → Nat
  | [], _, k => k
  | op :: ops, s, k =>
    match s.step sem op with
    | some s' => calls a b out inp ops s' (callStep s.live a b out inp k op)
    | none => k

/-- drops are atomic (one control thread), constructors do not fail half way -/
def Op.simple : Op P M → Bool
  | .failCreate _ => false
  | .dropSend _ => false
  | .dropClear _ => false
  | _ => true

structure CInv (a b : Handle) (out inp : Nat) (s : Sys P S M) (k : Nat) : Prop where
  count : a ∈ s.live → b ∈ s.live →
    cnt a.id ⟨out, b.id, some inp⟩ ((gE s.g a.id).count ⟨out, b.id, some inp⟩) s.chan = k
  admin : a ∈ s.live → b ∈ s.live → ((a.id, (⟨out, b.id, some inp⟩ : Edge)) ∈ s.conns ↔ 0 < k)
  old : 0 < k → a.tag < s.nextTag ∧ b.tag < s.nextTag
  ends : ∀ c ∈ s.conns, (∃ x ∈ s.live, x.id = c.1) ∧ ∃ x ∈ s.live, x.id = c.2.dst
  tags : ∀ x ∈ s.live, x.tag < s.nextTag
  nobreak : ∀ n, s.g.slot a.id = some n → n.tag = a.tag → n.breaker = false
  nobreakMsg : Msg.breaker a.id a.tag ∉ s.chan

theorem live_id_inj {s : Sys P S M} (h : Inv s) {x y : Handle} (hx : x ∈ s.live) (hy : y ∈ s.live)
    (hxy : x.id = y.id) : x = y := by
  obtain ⟨L, _, hL⟩ := h.walk
  have a := (hL x).1 hx
  have b := (hL y).1 hy
  rw [hxy, b] at a
  simp only [Option.some.injEq, Prod.mk.injEq] at a
  obtain ⟨a1, a2, a3⟩ := a
  obtain ⟨x1, x2, x3, x4⟩ := x; obtain ⟨y1, y2, y3, y4⟩ := y
  simp only at hxy a1 a2 a3
  subst hxy a1 a2 a3
  rfl

theorem cnt_snoc (i : Nat) (e : Edge) (k : Nat) (ms : List (Msg P M)) (m : Msg P M) :
    cnt i e k (ms ++ [m]) = cntStep i e (cnt i e k ms) m := by simp [cnt]

/-- the messages sent by a `disconnect` -/
theorem cnt_disconnects (i : Nat) (e : Edge) (k src stag : Nat) (cs : List (Nat × Edge)) :
    cnt i e k (cs.map fun c => (Msg.disconnect src stag c.2 : Msg P M)) =
      if src = i ∧ ∃ c ∈ cs, c.2 = e then 0 else k := by
  induction cs generalizing k with
  | nil => simp [cnt]
  | cons c cs ih =>
    simp only [List.map_cons, cnt, List.foldl_cons]
    rw [show List.foldl (cntStep i e) (cntStep i e k (Msg.disconnect src stag c.2 : Msg P M))
      (cs.map fun c => (Msg.disconnect src stag c.2 : Msg P M)) = cnt i e _ _ from rfl, ih]
    simp only [cntStep, List.mem_cons, exists_eq_or_imp]
    by_cases h1 : src = i
    · by_cases h2 : c.2 = e
      · simp [h1, h2]
      · simp only [h2, and_false, if_false, false_or]
    · simp [h1]

theorem cinv_step (hp : NoPanic sem) {s s' : Sys P S M} (h : Inv s) {a b : Handle} {out inp k : Nat}
    (c : CInv a b out inp s k) (op : Op P M) (hsim : op.simple = true) (hbr : ∀ x, op = .breaker x → x.tag ≠ a.tag)
    (hst : s.step sem op = some s') : CInv a b out inp s' (callStep s.live a b out inp k op) := by
  cases op with
  | acquire =>
    simp only [Sys.step, Option.some.injEq] at hst
    subst hst
    unfold Sys.acquire
    split
    · exact ⟨c.count, c.admin, c.old, c.ends, c.tags, c.nobreak, c.nobreakMsg⟩
    · exact ⟨c.count, c.admin, c.old, c.ends, c.tags, c.nobreak, c.nobreakMsg⟩
  | register id proc nin nout cfg =>
    simp only [Sys.step] at hst
    split at hst
    · rename_i hid
      cases hst
      have hcpos : 0 < s.alloc.count id := List.count_pos_iff.2 hid
      have hold : ∀ x ∈ s.live, x.id ≠ id := by
        intro x hx hxid
        have := (live_uses h hx).2.1
        rw [hxid] at this; omega
      have hu := h.uniq id
      have hslot : s.g.slot id = none := by
        cases hs : s.g.slot id with
        | none => rfl
        | some n => simp [uses, hs] at hu; omega
      have hregs : id ∉ regIds s.chan := by
        intro hm
        have := List.count_pos_iff.2 hm
        simp only [uses] at hu; omega
      have hk0 : ∀ x : Handle, x.tag = s.nextTag → (x = a ∨ x = b) → k = 0 := by
        intro x hx hxab
        by_contra hne
        have := c.old (by omega)
        rcases hxab with rfl | rfl <;> omega
      simp only [callStep]
      refine ⟨?_, ?_, ?_, ?_, ?_, c.nobreak, ?_⟩
      · intro ha hb
        rw [cnt_snoc]
        simp only [List.mem_append, List.mem_singleton] at ha hb
        rcases ha with ha | ha
        · have hne : id ≠ a.id := (hold a ha).symm
          simp only [cntStep, if_neg hne]
          rcases hb with hb | hb
          · exact c.count ha hb
          · have hk := hk0 b (by rw [hb]) (Or.inr rfl)
            obtain ⟨L, hw, _⟩ := h.walk
            have hbid : b.id = id := by rw [hb]
            have hz : (gE s.g a.id).count ⟨out, b.id, some inp⟩ = 0 := by
              rw [List.count_eq_zero]
              intro hm
              unfold gE at hm
              cases hs : s.g.slot a.id with
              | none => rw [hs] at hm; simp at hm
              | some n =>
                rw [hs] at hm
                obtain ⟨_, t, ht, _⟩ := h.wf.edges _ n hs _ hm
                simp only [hbid, hslot] at ht; simp at ht
            rw [hz, hk]
            refine cnt_zero ?_
            intro src stag e' dtag hm heq
            have := walk_no_connect hw (id := id) (by simp [absG, hslot]) hregs src stag e' dtag hm
            rw [heq] at this
            exact this hbid
        · have hk := hk0 a (by rw [ha]) (Or.inl rfl)
          have : id = a.id := by rw [ha]
          simp [cntStep, this, hk]
      · intro ha hb
        simp only [List.mem_append, List.mem_singleton] at ha hb
        by_cases hnew : a = ⟨id, s.nextTag, nin, nout⟩ ∨ b = ⟨id, s.nextTag, nin, nout⟩
        · have hk : k = 0 := by
            rcases hnew with hn | hn
            · exact hk0 a (by rw [hn]) (Or.inl rfl)
            · exact hk0 b (by rw [hn]) (Or.inr rfl)
          rw [hk]
          simp only [lt_irrefl, iff_false]
          intro hm
          obtain ⟨⟨x, hx, hx2⟩, y, hy, hy2⟩ := c.ends _ hm
          rcases hnew with hn | hn
          · exact hold x hx (by rw [hx2, hn])
          · exact hold y hy (by rw [hy2, hn])
        · push Not at hnew
          exact c.admin (ha.resolve_right hnew.1) (hb.resolve_right hnew.2)
      · intro hk
        have := c.old hk
        simp only; omega
      · intro x hx
        obtain ⟨⟨y, hy, hy2⟩, z, hz, hz2⟩ := c.ends x hx
        exact ⟨⟨y, by simp [hy], hy2⟩, z, by simp [hz], hz2⟩
      · intro x hx
        simp only [List.mem_append, List.mem_singleton] at hx
        rcases hx with hx | rfl
        · have := c.tags x hx; simp only; omega
        · simp
      · intro hm
        simp only [List.mem_append, List.mem_singleton, reduceCtorEq, or_false] at hm
        exact c.nobreakMsg hm
    · cases hst; exact c
  | failCreate id => simp [Op.simple] at hsim
  | dropSend x => simp [Op.simple] at hsim
  | dropClear id => simp [Op.simple] at hsim
  | connect a' b' o i =>
    simp only [Sys.step] at hst
    split at hst
    · rename_i hg
      cases hst
      have key : a ∈ s.live → b ∈ s.live →
          ((a'.id = a.id ∧ (⟨o, b'.id, some i⟩ : Edge) = ⟨out, b.id, some inp⟩) ↔
          (a' = a ∧ b' = b ∧ o = out ∧ i = inp ∧ a ∈ s.live ∧ b ∈ s.live ∧ out < a.nout ∧ inp < b.nin)) := by
        intro ha hb
        constructor
        · rintro ⟨h1, h2⟩
          simp only [Edge.mk.injEq, Option.some.injEq] at h2
          obtain ⟨rfl, h3, rfl⟩ := h2
          have h4 := live_id_inj h hg.1 ha h1
          have h5 := live_id_inj h hg.2.1 hb h3
          subst h4 h5
          exact ⟨rfl, rfl, rfl, rfl, ha, hb, hg.2.2.1, hg.2.2.2⟩
        · rintro ⟨rfl, rfl, rfl, rfl, _⟩
          exact ⟨rfl, rfl⟩
      refine ⟨?_, ?_, ?_, ?_, c.tags, c.nobreak, ?_⟩
      · intro ha hb
        rw [cnt_snoc, c.count ha hb]
        simp only [cntStep, callStep]
        by_cases hc : a'.id = a.id ∧ (⟨o, b'.id, some i⟩ : Edge) = ⟨out, b.id, some inp⟩
        · rw [if_pos hc, if_pos ((key ha hb).1 hc)]
        · rw [if_neg hc, if_neg (fun h => hc ((key ha hb).2 h))]
      · intro ha hb
        have hmem : (a.id, (⟨out, b.id, some inp⟩ : Edge)) ∈
            (if (a'.id, (⟨o, b'.id, some i⟩ : Edge)) ∈ s.conns then s.conns
             else s.conns ++ [(a'.id, ⟨o, b'.id, some i⟩)]) ↔
            ((a.id, (⟨out, b.id, some inp⟩ : Edge)) ∈ s.conns ∨
             (a'.id = a.id ∧ (⟨o, b'.id, some i⟩ : Edge) = ⟨out, b.id, some inp⟩)) := by
          split
          · rename_i hin
            constructor
            · exact Or.inl
            · rintro (h1 | ⟨h1, h2⟩)
              · exact h1
              · rw [← h1, ← h2]; exact hin
          · simp only [List.mem_append, List.mem_singleton, Prod.mk.injEq]
            constructor
            · rintro (h1 | ⟨h1, h2⟩)
              · exact Or.inl h1
              · exact Or.inr ⟨h1.symm, h2.symm⟩
            · rintro (h1 | ⟨h1, h2⟩)
              · exact Or.inl h1
              · exact Or.inr ⟨h1.symm, h2.symm⟩
        rw [hmem, c.admin ha hb, key ha hb]
        simp only [callStep]
        split
        · rename_i hc; simp [hc]
        · rename_i hc; simp only [hc, or_false]
      · intro hk
        simp only [callStep] at hk
        split at hk
        · rename_i hc
          exact ⟨c.tags a hc.2.2.2.2.1, c.tags b hc.2.2.2.2.2.1⟩
        · exact c.old hk
      · intro x hx
        have hx' : x ∈ s.conns ∨ x = (a'.id, ⟨o, b'.id, some i⟩) := by
          simp only at hx
          split at hx
          · exact Or.inl hx
          · simpa using hx
        rcases hx' with hx' | rfl
        · exact c.ends x hx'
        · exact ⟨⟨a', hg.1, rfl⟩, b', hg.2.1, rfl⟩
      · intro hm
        simp only [List.mem_append, List.mem_singleton, reduceCtorEq, or_false] at hm
        exact c.nobreakMsg hm
    · rename_i hg
      cases hst
      have : callStep s.live a b out inp k (Op.connect a' b' o i : Op P M) = k := by
        simp only [callStep]
        split
        · rename_i hc
          obtain ⟨rfl, rfl, rfl, rfl, h1, h2, h3, h4⟩ := hc
          exact absurd ⟨h1, h2, h3, h4⟩ hg
        · rfl
      rw [this]; exact c
  | connectHidden a' b' admin =>
    simp only [Sys.step] at hst
    split at hst
    · rename_i hg
      cases hst
      simp only [callStep]
      refine ⟨?_, ?_, c.old, ?_, c.tags, c.nobreak, ?_⟩
      · intro ha hb
        rw [cnt_snoc, c.count ha hb]
        simp [cntStep]
      · intro ha hb
        rw [← c.admin ha hb]
        simp only
        split
        · exact Iff.rfl
        · simp
      · intro x hx
        have hx' : x ∈ s.conns ∨ x = (a'.id, ⟨0, b'.id, none⟩) := by
          simp only at hx
          split at hx
          · exact Or.inl hx
          · simpa using hx
        rcases hx' with hx' | rfl
        · exact c.ends x hx'
        · exact ⟨⟨a', hg.1, rfl⟩, b', hg.2.1, rfl⟩
      · intro hm
        simp only [List.mem_append, List.mem_singleton, reduceCtorEq, or_false] at hm
        exact c.nobreakMsg hm
    · cases hst; exact c
  | disconnect a' o d i =>
    simp only [Sys.step] at hst
    split at hst
    · rename_i hg
      cases hst
      have key : a ∈ s.live → (discSel a'.id o d i (a.id, (⟨out, b.id, some inp⟩ : Edge)) = true ↔
          (a' = a ∧ (o = none ∨ o = some out) ∧ (d = none ∨ d = some b.id) ∧ (i = none ∨ i = some inp))) := by
        intro ha
        unfold discSel
        have h1 : (a.id == a'.id) = true ↔ a' = a := by
          simp only [beq_iff_eq]
          exact ⟨fun h2 => (live_id_inj h ha hg h2).symm, fun h2 => by rw [h2]⟩
        simp only [Bool.and_eq_true, h1]
        cases o <;> cases d <;> cases i <;>
          simp only [beq_iff_eq, reduceCtorEq, Option.some.injEq, true_or, false_or, and_true, true_and,
            eq_comm (a := out), eq_comm (a := b.id), eq_comm (a := inp), and_assoc]
      have hcnt : a ∈ s.live → b ∈ s.live →
          ((a'.id = a.id ∧ ∃ c0 ∈ s.conns.filter (discSel a'.id o d i), c0.2 = (⟨out, b.id, some inp⟩ : Edge)) ↔
          (discSel a'.id o d i (a.id, (⟨out, b.id, some inp⟩ : Edge)) = true ∧ 0 < k)) := by
        intro ha hb
        rw [← c.admin ha hb]
        constructor
        · rintro ⟨h1, c0, h2, h3⟩
          obtain ⟨h4, h5⟩ := List.mem_filter.1 h2
          have h6 : c0 = (a.id, (⟨out, b.id, some inp⟩ : Edge)) := by
            obtain ⟨c1, c2⟩ := c0
            simp only at h3; subst h3
            have : c1 = a'.id := by
              unfold discSel at h5
              simp only [Bool.and_eq_true, beq_iff_eq] at h5
              exact h5.1.1.1
            rw [this, h1]
          subst h6
          exact ⟨h5, h4⟩
        · rintro ⟨h1, h2⟩
          refine ⟨by rw [((key ha).1 h1).1], _, List.mem_filter.2 ⟨h2, h1⟩, rfl⟩
      refine ⟨?_, ?_, ?_, ?_, c.tags, c.nobreak, ?_⟩
      · intro ha hb
        have : ∀ (k0 : Nat) (l l' : List (Msg P M)), cnt a.id ⟨out, b.id, some inp⟩ k0 (l ++ l') =
            cnt a.id ⟨out, b.id, some inp⟩ (cnt a.id ⟨out, b.id, some inp⟩ k0 l) l' := by
          intro k0 l l'; simp [cnt]
        rw [this, c.count ha hb, cnt_disconnects]
        simp only [callStep]
        by_cases hs : discSel a'.id o d i (a.id, (⟨out, b.id, some inp⟩ : Edge)) = true
        · rw [if_pos ((key ha).1 hs)]
          by_cases hk : 0 < k
          · rw [if_pos ((hcnt ha hb).2 ⟨hs, hk⟩)]
          · rw [if_neg (fun hc => hk ((hcnt ha hb).1 hc).2)]; omega
        · rw [if_neg (fun hc => hs ((key ha).2 hc)), if_neg (fun hc => hs ((hcnt ha hb).1 hc).1)]
      · intro ha hb
        simp only [List.mem_filter, c.admin ha hb, callStep]
        by_cases hs : discSel a'.id o d i (a.id, (⟨out, b.id, some inp⟩ : Edge)) = true
        · rw [if_pos ((key ha).1 hs)]; simp [hs]
        · rw [if_neg (fun hc => hs ((key ha).2 hc))]; simp [hs]
      · intro hk
        simp only [callStep] at hk
        split at hk
        · omega
        · exact c.old hk
      · intro x hx
        exact c.ends x (List.mem_filter.1 hx).1
      · intro hm
        simp only [List.mem_append, List.mem_map, reduceCtorEq, and_false, exists_false, or_false] at hm
        exact c.nobreakMsg hm
    · rename_i hg
      cases hst
      refine ⟨?_, ?_, ?_, c.ends, c.tags, c.nobreak, c.nobreakMsg⟩
      · intro ha hb
        simp only [callStep]
        split
        · rename_i hc; exact absurd (hc.1 ▸ ha) hg
        · exact c.count ha hb
      · intro ha hb
        simp only [callStep]
        split
        · rename_i hc; exact absurd (hc.1 ▸ ha) hg
        · exact c.admin ha hb
      · intro hk
        simp only [callStep] at hk
        split at hk
        · omega
        · exact c.old hk
  | post x m =>
    simp only [Sys.step] at hst
    split at hst
    · cases hst
      simp only [callStep]
      refine ⟨fun ha hb => by rw [cnt_snoc, c.count ha hb]; rfl, c.admin, c.old, c.ends, c.tags, c.nobreak, ?_⟩
      intro hm
      simp only [List.mem_append, List.mem_singleton, reduceCtorEq, or_false] at hm
      exact c.nobreakMsg hm
    · cases hst; exact c
  | setCfg x m =>
    simp only [Sys.step] at hst
    split at hst
    · cases hst
      simp only [callStep]
      refine ⟨fun ha hb => by rw [cnt_snoc, c.count ha hb]; rfl, c.admin, c.old, c.ends, c.tags, c.nobreak, ?_⟩
      intro hm
      simp only [List.mem_append, List.mem_singleton, reduceCtorEq, or_false] at hm
      exact c.nobreakMsg hm
    · cases hst; exact c
  | breaker x =>
    simp only [Sys.step] at hst
    split at hst
    · rename_i hg
      cases hst
      simp only [callStep]
      have hxa := hbr x rfl
      refine ⟨fun ha hb => by rw [cnt_snoc, c.count ha hb]; rfl, c.admin, c.old, c.ends, c.tags, c.nobreak, ?_⟩
      intro hm
      simp only [List.mem_append, List.mem_singleton, Msg.breaker.injEq] at hm
      rcases hm with hm | ⟨_, hm⟩
      · exact c.nobreakMsg hm
      · exact hxa hm.symm
    · cases hst; exact c
  | drop x =>
    simp only [Sys.step] at hst
    split at hst
    · rename_i hg
      cases hst
      simp only [callStep]
      refine ⟨?_, ?_, c.old, ?_, ?_, c.nobreak, ?_⟩
      · intro ha hb
        rw [cnt_snoc, c.count (List.mem_of_mem_erase ha) (List.mem_of_mem_erase hb)]
        rfl
      · intro ha hb
        rw [h.nodup.mem_erase_iff] at ha hb
        rw [← c.admin ha.2 hb.2]
        have h1 : a.id ≠ x.id := fun h1 => ha.1 (live_id_inj h ha.2 hg.1 h1)
        have h2 : b.id ≠ x.id := fun h2 => hb.1 (live_id_inj h hb.2 hg.1 h2)
        simp [h1, h2]
      · intro y hy
        obtain ⟨hy1, hy2⟩ := List.mem_filter.1 hy
        simp only [ne_eq, decide_eq_true_eq] at hy2
        obtain ⟨⟨p, p1, p2⟩, q, q1, q2⟩ := c.ends y hy1
        refine ⟨⟨p, ?_, p2⟩, q, ?_, q2⟩
        · rw [h.nodup.mem_erase_iff]; exact ⟨by rintro rfl; exact hy2.1 p2.symm, p1⟩
        · rw [h.nodup.mem_erase_iff]; exact ⟨by rintro rfl; exact hy2.2 q2.symm, q1⟩
      · exact fun y hy => c.tags y (List.mem_of_mem_erase hy)
      · intro hm
        simp only [List.mem_append, List.mem_singleton, reduceCtorEq, or_false] at hm
        exact c.nobreakMsg hm
    · cases hst; exact c
  | recv =>
    simp only [Sys.step] at hst
    simp only [callStep]
    cases hc : s.chan with
    | nil => rw [hc] at hst; cases hst; exact c
    | cons m ms =>
      rw [hc] at hst
      simp only [Option.map_eq_some_iff] at hst
      obtain ⟨g', hg', rfl⟩ := hst
      refine ⟨?_, c.admin, c.old, c.ends, c.tags, ?_, ?_⟩
      · intro ha hb
        have h1 := c.count ha hb
        rw [hc] at h1
        simp only
        rw [handle_cnt sem hg']
        exact h1
      · obtain ⟨L, hw, _⟩ := h.walk
        rw [hc] at hw
        have hok := hw.1
        have hbm := c.nobreakMsg
        rw [hc] at hbm
        have hput : ∀ {q : Nat} {n n' : Node P S}, s.g.get q = some n → n'.tag = n.tag →
            n'.breaker = n.breaker → ∀ n0, (s.g.put q (some n')).slot a.id = some n0 → n0.tag = a.tag →
            n0.breaker = false := by
          intro q n n' hq h1 h2 n0 h3 h4
          simp only [RGraph.put] at h3
          split at h3
          · rename_i hq2
            cases h3
            have : s.g.slot a.id = some n := by
              rw [hq2]; unfold RGraph.get at hq; split at hq
              · exact hq
              · simp at hq
            rw [h2]; exact c.nobreak n this (by rw [← h1, h4])
          · exact c.nobreak n0 h3 h4
        intro n0 hn0 htag
        simp only at hn0
        cases m with
        | register id tag proc nin nout cfg =>
          simp only [RGraph.handle, Option.some.injEq] at hg'
          subst hg'
          simp only [RGraph.addNode] at hn0
          split at hn0
          · cases hn0; rfl
          · exact c.nobreak n0 hn0 htag
        | connect src stag e' dtag =>
          simp only [RGraph.handle, RGraph.addEdge] at hg'
          split at hg'
          · rename_i n hn
            cases hg'
            refine hput hn ?_ ?_ n0 hn0 htag <;> rfl
          · simp at hg'
        | disconnect src stag e' =>
          simp only [RGraph.handle, RGraph.removeEdge] at hg'
          split at hg'
          · rename_i n hn
            cases hg'
            refine hput hn ?_ ?_ n0 hn0 htag <;> rfl
          · simp at hg'
        | dropped id tag =>
          simp only [RGraph.handle, RGraph.markDropped] at hg'
          split at hg'
          · rename_i hcap
            split at hg'
            · rename_i n hn
              cases hg'
              refine hput (q := id) (n := n) (by simp [RGraph.get, hcap]; exact hn) ?_ ?_ n0 hn0 htag <;> rfl
            · cases hg'; exact c.nobreak n0 hn0 htag
          · simp at hg'
        | breaker id tag =>
          simp only [RGraph.handle, RGraph.markBreaker, Option.map_eq_some_iff] at hg'
          obtain ⟨n, hn, rfl⟩ := hg'
          simp only [RGraph.put] at hn0
          split at hn0
          · rename_i hq2
            cases hn0
            exfalso
            obtain ⟨ni, no, h1⟩ := hok
            have hns : s.g.slot id = some n := by
              unfold RGraph.get at hn; split at hn
              · exact hn
              · simp at hn
            simp only [absG, hns] at h1
            split at h1
            · simp at h1
            · simp only [Option.some.injEq, Prod.mk.injEq] at h1
              apply hbm
              simp only at htag
              rw [hq2, ← htag, h1.1]; simp
          · exact c.nobreak n0 hn0 htag
        | post id tag x =>
          simp only [RGraph.handle, RGraph.routeMessage, Option.bind_eq_some_iff, Option.map_eq_some_iff] at hg'
          obtain ⟨n, hn, q, hq, rfl⟩ := hg'
          refine hput hn ?_ ?_ n0 hn0 htag <;> rfl
        | setCfg id tag x =>
          simp only [RGraph.handle, RGraph.setCfg, Option.map_eq_some_iff] at hg'
          obtain ⟨n, hn, rfl⟩ := hg'
          refine hput hn ?_ ?_ n0 hn0 htag <;> rfl
      · have := c.nobreakMsg
        rw [hc] at this
        exact fun hm => this (by simp [hm])
  | quantum =>
    simp only [Sys.step, Option.map_eq_some_iff] at hst
    obtain ⟨⟨g', o⟩, hr, rfl⟩ := hst
    simp only [callStep]
    obtain ⟨g'', o', k1, k2, _, k3, k4, k5⟩ := quantum_spec sem hp h.wf h.dest
    rw [hr] at k1
    simp only [Option.some.injEq, Prod.mk.injEq] at k1
    obtain ⟨rfl, rfl⟩ := k1
    refine ⟨?_, c.admin, c.old, c.ends, c.tags, ?_, c.nobreakMsg⟩
    · intro ha hb
      have h1 := c.count ha hb
      have hsame : (gE g' a.id).count ⟨out, b.id, some inp⟩ = (gE s.g a.id).count ⟨out, b.id, some inp⟩ := by
        rcases (live_uses h ha).2.2.2 with ⟨n, hn, hnd, hnt, _⟩ | ⟨hn, _⟩
        · rcases (live_uses h hb).2.2.2 with ⟨t, ht, htd, _, _⟩ | ⟨ht, _⟩
          · obtain ⟨n', q1, q2, q3, q4⟩ := quantum_count sem hp h.wf hr a.id b.id n t hn hnd
              (c.nobreak n hn hnt) ht htd
            simp only [gE, q1, hn]
            exact q4 _ rfl
          · have hz : ∀ (gg : RGraph P S), WF gg → gg.slot b.id = none →
                (gE gg a.id).count ⟨out, b.id, some inp⟩ = 0 := by
              intro gg wg hgb
              rw [List.count_eq_zero]
              intro hm
              unfold gE at hm
              cases hs : gg.slot a.id with
              | none => rw [hs] at hm; simp at hm
              | some n =>
                rw [hs] at hm
                obtain ⟨_, t, ht', _⟩ := wg.edges _ n hs _ hm
                simp only [hgb] at ht'; simp at ht'
            rw [hz g' k2 (k4 _ ht), hz s.g h.wf ht]
        · simp [gE, hn, k4 _ hn]
      simp only
      rw [hsame]; exact h1
    · intro n' hn' htag
      have hb := quantum_breaker sem h.wf hr a.id n' hn'
      obtain ⟨n, h1, h2, h3⟩ := hb
      rw [h3]
      exact c.nobreak n h1 (by rw [← h2, htag])

end Verif.Render
