/-
The dof bookkeeping shared by several element families: entities receive consecutive blocks of dof numbers,
in a given order.  hdiv_trace.py:93-102, raviart_thomas.py:117-141, nedelec.py:207-227, :323-347,
brezzi_douglas_marini.py:72-96, serendipity.py:69-97.
-/
import Verif.Model.Cell
namespace FIAT
section
variable {δ : Type} [LinearOrder δ]

/-- `entity_ids[d][e] = l`.  (In the code `entity_ids[d]` always exists at this point.) -/
def setIds (ids : EntityIds δ) (d : δ) (e : ℕ) (l : List ℕ) : EntityIds δ :=
  Dict.put ids d (Dict.put ((Dict.get? ids d).getD []) e l)

/-- One step `entity_ids[d][e] = list(range(cur, cur + n)); cur += n`, e.g. hdiv_trace.py:101-102,
raviart_thomas.py:133-134.  The state is `(cur, entity_ids)`. -/
def blockStep (n : ℕ) (st : ℕ × EntityIds δ) (x : δ × ℕ) : ℕ × EntityIds δ :=
  (st.1 + n, setIds st.2 x.1 x.2 (List.range' st.1 n))

/-- The loop `for x in L: entity_ids[x] = list(range(cur, cur + n(x))); cur += n(x)`. -/
def blockLoop (n : δ × ℕ → ℕ) (L : List (δ × ℕ)) (st : ℕ × EntityIds δ) : ℕ × EntityIds δ :=
  L.foldl (fun (st : ℕ × EntityIds δ) (x : δ × ℕ) => blockStep (n x) st x) st

/-- `entity_ids = {dim: {entity: [] for entity in entities} for dim, entities in topology.items()}`:
hdiv_trace.py:80-89, serendipity.py:72-75. -/
def blankIds (topo : Topology δ) : EntityIds δ :=
  topo.map fun p => (p.1, p.2.map fun q => (q.1, ([] : List ℕ)))

end
end FIAT
