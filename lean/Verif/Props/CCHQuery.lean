import Verif.Proof.CCHSession
import Verif.Props.CCHCustomization
set_option linter.unusedVariables false
/- Properties of the CCH query server: C31, C32 and the CCH parts of C22 and C23. -/
namespace Verif
open Spec CCH

/-- The operations a user may perform on a server for the CCH of `orig`: queries between existing nodes, and updates to metrics
for the same graph. -/
def ValidOps (orig : FOGraph) (ops : List Op) : Prop := ∀ op ∈ ops, match op with
  | .query s t _ => s < orig.numNodes ∧ t < orig.numNodes
  | .update m => m.WF ∧ m.firstOut = orig.firstOut ∧ m.head = orig.head

/-- `SessionOf Q metric ops replies`: one reply for each query, which satisfies `Q` with respect to the metric valid at that time. -/
inductive SessionOf (Q : FOGraph → Nat → Nat → Nat → Option Nat × List (List Nat) → Prop) : FOGraph → List Op → List (Option Nat × List (List Nat)) → Prop
  | nil (m : FOGraph) : SessionOf Q m [] []
  | query {m : FOGraph} {s t k : Nat} {r : Option Nat × List (List Nat)} {ops rs} : Q m s t k r → SessionOf Q m ops rs →
      SessionOf Q m (.query s t k :: ops) (r :: rs)
  | update {m m' : FOGraph} {ops rs} : SessionOf Q m' ops rs → SessionOf Q m (.update m' :: ops) rs

/-- The distance is the right one. -/
def ExactReply (metric : FOGraph) (s t _k : Nat) (r : Option Nat × List (List Nat)) : Prop := Answer metric.Arc s t r.1

/-- If there is a distance `d`, then each of the `k` paths asked for is a path of the input graph from `s` to `t` of length `d`,
without repeated nodes. -/
def PathReply (metric : FOGraph) (s t k : Nat) (r : Option Nat × List (List Nat)) : Prop :=
  (r.1 = none ∧ r.2 = []) ∨ ∃ d, r.1 = some d ∧ r.2.length = k ∧
    ∀ p ∈ r.2, PathOf metric.Arc p d ∧ p.head? = some s ∧ p.getLast? = some t ∧ p.Nodup

/-- The same history, but every query is put to a new server. -/
def freshSession (c : Cch) : Weights → List Op → Option (List (Option Nat × List (List Nat)))
  | _, [] => some []
  | w, .query src dst k :: ops => do
    let r ← serve c w (Server.new c.numNodes c.head.length) src dst k
    let rs ← freshSession c w ops
    return r.1 :: rs
  | _, .update metric :: ops => do
    let w ← customize c metric
    freshSession c w ops

theorem SessionOf.mono {Q Q' : FOGraph → Nat → Nat → Nat → Option Nat × List (List Nat) → Prop} (hQ : ∀ m s t k r, Q m s t k r → Q' m s t k r)
    {m : FOGraph} {ops : List Op} {rs : List (Option Nat × List (List Nat))} (h : SessionOf Q m ops rs) : SessionOf Q' m ops rs := by
  induction h with
  | nil => exact .nil _
  | query h1 _ ih => exact .query (hQ _ _ _ _ _ h1) ih
  | update _ ih => exact .update ih

theorem session_spec {orig : FOGraph} {order : NodeOrder} {c : Cch} (ho : orig.WF) (hord : order.OK orig.numNodes) (hg : Good orig.numNodes c)
    (hb : BuiltFrom orig order c) : ∀ (ops : List Op), ValidOps orig ops → ∀ {metric : FOGraph} {w : Weights} {srv : Server}, Ready orig.numNodes c metric.Arc w →
      Clean orig.numNodes srv →
      ∃ rs, session c w srv ops = some rs ∧ freshSession c w ops = some rs ∧ SessionOf (fun m => ReplyOK m.Arc) metric ops rs
  | [], _, metric, w, srv, _, _ => ⟨[], rfl, rfl, .nil _⟩
  | .query s t k :: ops, hv, metric, w, srv, hr, hcl => by
    obtain ⟨hs, ht⟩ := hv _ (List.mem_cons_self)
    obtain ⟨r, h1, h2⟩ := serve_spec hr hs ht k
    obtain ⟨srv', h3, h4⟩ := h2 srv hcl
    obtain ⟨srv'', h5, _⟩ := h2 (Server.new c.numNodes c.head.length) (by
      have := clean_new c.numNodes c.head.length
      rw [show c.numNodes = orig.numNodes from hg.nn] at this ⊢; exact this)
    obtain ⟨rs, h6, h7, h8⟩ := session_spec ho hord hg hb ops (fun op hop => hv op (List.mem_cons_of_mem _ hop)) hr h4
    refine ⟨r :: rs, ?_, ?_, .query h1 h8⟩
    · simp only [session, h3, h6, Option.bind_eq_bind, Option.bind_some, Option.pure_def]
    · simp only [freshSession, h5, h7, Option.bind_eq_bind, Option.bind_some, Option.pure_def]
  | .update m :: ops, hv, metric, w, srv, hr, hcl => by
    obtain ⟨h1, h2, h3⟩ := hv _ (List.mem_cons_self)
    obtain ⟨w', h4, h5⟩ := customize_ready ho hord hg hb (metric := m) ⟨h1, h2, h3⟩
    obtain ⟨rs, h6, h7, h8⟩ := session_spec ho hord hg hb ops (fun op hop => hv op (List.mem_cons_of_mem _ hop)) h5 hcl
    refine ⟨rs, ?_, ?_, .update h8⟩
    · simp only [session, h4, h6, Option.bind_eq_bind, Option.bind_some]
    · simp only [freshSession, h4, h7, Option.bind_eq_bind, Option.bind_some]

section
variable (orig : FOGraph) (ho : orig.WF) (l : List Nat) (hl : l.length = orig.numNodes) (order : NodeOrder)
  (hord : NodeOrder.fromNodeOrder l = some order) (c : Cch) (hc : build orig order = some c)
  (metric : FOGraph) (hm : metric.WF) (hfo : metric.firstOut = orig.firstOut) (hhd : metric.head = orig.head)
  (ops : List Op) (hops : ValidOps orig ops)
include ho hl hord hc hm hfo hhd hops

theorem session_all : ∃ w rs, customize c metric = some w ∧ session c w (Server.new c.numNodes c.head.length) ops = some rs ∧
    freshSession c w ops = some rs ∧ SessionOf (fun m => ReplyOK m.Arc) metric ops rs := by
  have hok : order.OK orig.numNodes := by rw [← hl]; exact NodeOrder.ok_of_fromNodeOrder hord
  rcases build_spec ho hok with h | ⟨c', h1, hg, hb⟩
  · rw [hc] at h; simp at h
  · rw [hc] at h1; simp at h1; subst h1
    obtain ⟨w, h4, h5⟩ := customize_ready ho hok hg hb (metric := metric) ⟨hm, hfo, hhd⟩
    obtain ⟨rs, h6, h7, h8⟩ := session_spec ho hok hg hb ops hops h5 (srv := Server.new c.numNodes c.head.length) (by
      have := clean_new c.numNodes c.head.length
      rw [show c.numNodes = orig.numNodes from hg.nn] at this ⊢; exact this)
    exact ⟨w, rs, h4, h6, h7, h8⟩

/-- **C31.** A CCH server answers each query with the shortest distance in the input graph with the current metric (`None` if it
is not below `INFINITY`), whatever queries, path extractions and metric updates came before. -/
theorem C31_cch_exact : ∃ w rs, customize c metric = some w ∧ session c w (Server.new c.numNodes c.head.length) ops = some rs ∧
    SessionOf ExactReply metric ops rs := by
  obtain ⟨w, rs, h1, h2, _, h3⟩ := session_all orig ho l hl order hord c hc metric hm hfo hhd ops hops
  exact ⟨w, rs, h1, h2, h3.mono (fun m s t k r h => h.ans)⟩

/-- **C32.** Whenever there is a distance, each call of `node_path` gives a path of the input graph from source to target with
exactly this length, without repeated nodes. In particular unpacking terminates. -/
theorem C32_cch_paths : ∃ w rs, customize c metric = some w ∧ session c w (Server.new c.numNodes c.head.length) ops = some rs ∧
    SessionOf PathReply metric ops rs := by
  obtain ⟨w, rs, h1, h2, _, h3⟩ := session_all orig ho l hl order hord c hc metric hm hfo hhd ops hops
  refine ⟨w, rs, h1, h2, h3.mono (fun m s t k r h => ?_)⟩
  cases hr : r.1 with
  | none => exact .inl ⟨hr, h.none hr⟩
  | some d => exact .inr ⟨d, hr, h.some d hr⟩

/-- **C22** (CCH). Distances and paths are those of a fresh server for the current metric. -/
theorem C22_cch_no_state_between_queries (w : Weights) (hw : customize c metric = some w) :
    session c w (Server.new c.numNodes c.head.length) ops = freshSession c w ops := by
  obtain ⟨w', rs, h1, h2, h3, _⟩ := session_all orig ho l hl order hord c hc metric hm hfo hhd ops hops
  rw [hw] at h1; simp at h1; subst h1
  rw [h2, h3]

/-- **C23** (CCH). Neither customization nor any query or path extraction panics; in the model every `u32` addition that
overflows gives `none`. -/
theorem C23_cch_no_overflow : ∃ w, customize c metric = some w ∧ session c w (Server.new c.numNodes c.head.length) ops ≠ none := by
  obtain ⟨w, rs, h1, h2, _⟩ := session_all orig ho l hl order hord c hc metric hm hfo hhd ops hops
  exact ⟨w, h1, by rw [h2]; simp⟩

end

/-! The hypotheses are met: a history on the example with a change of metric. -/
namespace CCHExample

def ops : List Op := [.query 0 2 2, .query 3 0 1, .query 0 1 1, .update orig, .query 0 1 1, .query 0 0 1]

theorem ops_valid : ValidOps orig ops := by
  intro op hop
  simp only [ops, List.mem_cons, List.not_mem_nil, or_false] at hop
  rcases hop with rfl | rfl | rfl | rfl | rfl | rfl <;> simp only
  case inr.inr.inr.inl => exact ⟨orig_wf, by simp⟩
  all_goals decide

theorem replies : ((build orig order).bind (fun c => (customize c metric).bind (fun w => session c w (Server.new c.numNodes c.head.length) ops))) =
    some [(some 11, [[0, 4, 2], [0, 4, 2]]), (some 10, [[3, 5, 2, 4, 0]]), (none, []), (some 4, [[0, 4, 1]]), (some 0, [[0]])] := by
  decide +kernel

example (c : Cch) (hc : build orig order = some c) : ∃ w rs, customize c metric = some w ∧
    session c w (Server.new c.numNodes c.head.length) ops = some rs ∧ SessionOf ExactReply metric ops rs :=
  C31_cch_exact orig orig_wf nodes rfl order order_ok c hc metric metric_wf rfl rfl ops ops_valid

end CCHExample
end Verif
