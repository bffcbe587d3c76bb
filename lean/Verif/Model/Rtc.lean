/-
Model of `EnrichedElement` as an element which other constructions use, and of the H(div) and H(curl) elements on quadrilaterals built from
products of elements on the interval.
-/
import Verif.Model.QuadElement
import Verif.Model.HdivCurl
import Verif.Model.Combine

namespace FIAT

/-- What `EnrichedElement` reads from one of its elements: the element, `entity_dofs()`, the mapping and the nodes. -/
structure EnrichPart where
  el : TabElem ℝ ℝ
  ids : EntityIds Key
  map : PullBack
  nodes : List (Functional ℝ (List ℝ))

/-- The element returned by `Hdiv` or `Hcurl` is a copy of the product element with a new mapping, value shape, nodes and `tabulate`
(hdivcurl.py:23-27, :117-130, :145-149, :239-252); its entity dofs are those of the product (tensor_product.py:49-65). -/
noncomputable def wrappedPart (A B : TabElem ℝ ℝ) (idsA idsB : EntityIds Key) (W : WrappedElem ℝ) : EnrichPart where
  el := { cell := tensorProductCell [A.cell, B.cell], sd := A.sd + B.sd, dim := A.dim * B.dim, shape := some W.shape, tabulate := W.tabulate }
  ids := tensorEntityIds B.dim idsA idsB
  map := W.map
  nodes := W.nodes

open Classical in
/-- `EnrichedElement(*elements)`, enriched.py:27-110: the checks (`none`: `ValueError`), `entity_ids`, the nodes and `tabulate`.
Simplification: Python compares the classes of the reference elements and the factors of product cells (see Model/CellEq.lean); here the
topologies are compared. -/
noncomputable def enrichedElement (es : List EnrichPart) : Option (TabElem ℝ ℝ × EntityIds Key × PullBack × List (Functional ℝ (List ℝ))) :=
  match es with
  | [] => none
  | e :: es' =>
    if ∀ x ∈ es', x.el.cell.topo = e.el.cell.topo then
      if ∀ x ∈ es', x.map = e.map then
        if ∀ x ∈ es', x.el.shape = e.el.shape then
          (concatenateEntityDofs e.el.cell.topo ((e :: es').map fun x => (x.el.dim, x.ids))).map fun ids =>
            ({ cell := e.el.cell, sd := e.el.sd, dim := ((e :: es').map fun x => x.el.dim).sum, shape := e.el.shape,
               tabulate := fun order points ent =>
                ((e :: es').mapM fun (x : EnrichPart) => (x.el.tabulate order points ent).map fun (t : Tab ℝ) =>
                  (⟨x.el.dim, e.el.shape.getD 1, t⟩ : SubTable ℝ (List ℕ))).map (enrichedTabulate (e.el.shape.getD 1)) },
              ids, e.map, ((e :: es').map fun x => x.nodes).flatten)
        else none
      else none
    else none

/-- What the wrappers read from a continuous element on the interval: `formdegree` 0, affine (lagrange.py:45-46). -/
def infoC : FormInfo := ⟨some 0, .affine, 1⟩

/-- ... and from a discontinuous one: `formdegree` 1, affine (discontinuous_lagrange.py:48-49, P0.py:45-46). -/
def infoD : FormInfo := ⟨some 1, .affine, 1⟩

/-- The nodes of a product of elements with point evaluations, as `Hdiv` and `Hcurl` see them (tensor_product.py:78-89, hdivcurl.py:123-130, :245-252). -/
noncomputable def evalNodes (ps qs : List (List ℝ)) : List (Bool × Functional ℝ (List ℝ)) :=
  ps.flatMap fun p => qs.map fun q => (true, (pointNode (p ++ q)).fn)

/-- `FlattenedDimensions(EnrichedElement(Hdiv(TensorProductElement(A, B)), Hdiv(TensorProductElement(B, A))))`, the element RTCF, for a
continuous element `A` and a discontinuous element `B` on the interval (hdivcurl.py:13-132, enriched.py:27-115, tensor_product.py:363-407). -/
noncomputable def rtcf (A B : TabElem ℝ ℝ) (idsA idsB : EntityIds Key) (ps qs : List (List ℝ)) :
    Option (TabElem ℝ ℝ × EntityIds Key × PullBack) :=
  (Hdiv infoC infoD A B (evalNodes ps qs)).bind fun W1 =>
  (Hdiv infoD infoC B A (evalNodes qs ps)).bind fun W2 =>
  (enrichedElement [wrappedPart A B idsA idsB W1, wrappedPart B A idsB idsA W2]).bind fun E =>
  (flattenedDimensions E.1 E.2.1).map fun F => (F.1, F.2, E.2.2.1)

/-- `FlattenedDimensions(EnrichedElement(Hcurl(TensorProductElement(B, A)), Hcurl(TensorProductElement(A, B))))`, the element RTCE
(hdivcurl.py:135-254, enriched.py:27-115, tensor_product.py:363-407). -/
noncomputable def rtce (A B : TabElem ℝ ℝ) (idsA idsB : EntityIds Key) (ps qs : List (List ℝ)) :
    Option (TabElem ℝ ℝ × EntityIds Key × PullBack) :=
  (Hcurl infoD infoC B A (evalNodes qs ps)).bind fun W1 =>
  (Hcurl infoC infoD A B (evalNodes ps qs)).bind fun W2 =>
  (enrichedElement [wrappedPart B A idsB idsA W1, wrappedPart A B idsA idsB W2]).bind fun E =>
  (flattenedDimensions E.1 E.2.1).map fun F => (F.1, F.2, E.2.2.1)

end FIAT
