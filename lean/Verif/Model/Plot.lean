import Verif.Spec.Tour

/-!
# Python: drawing edges and tours

Model of `edge_scatter`, pctsp/plot/plot_edges.py 8-51, and of `tour_edges_trace`, pctsp/plot/plot_tour.py 10-55.  The widths and colours are left out.
-/

namespace Pctsp

variable {V K : Type}

/-- The array of one coordinate of the ends of all edges, plot_edges.py 22-38: the two ends of the first edge, then those of the second one, and so on.
`at v` is `vertex_df.at[v, name]`; `none` is the `KeyError` for a vertex without a row. -/
def edgeArray (pos : V → Option K) : List (V × V) → Option (List K)
  | [] => some []
  | e :: edges =>
    match pos e.1, pos e.2, edgeArray pos edges with
    | some a, some b, some rest => some (a :: b :: rest)
    | _, _, _ => none

/-- `edge_scatter`, plot_edges.py 8-51: the arrays `x` and `y` of the trace. -/
def edgeScatter (x y : V → Option K) (edges : List (V × V)) : Option (List K × List K) :=
  match edgeArray x edges, edgeArray y edges with
  | some xs, some ys => some (xs, ys)
  | _, _ => none

/-- What plotly draws for a trace with mode "lines" (plot_edges.py 43): a line from every point to the next one. -/
def drawnLines (trace : List K × List K) : List ((K × K) × (K × K)) := consec (trace.1.zip trace.2)

/-- The rows of the table of edges that belong to the tour, plot_tour.py 34-40. -/
def tourRows [DecidableEq V] (tour : List V) (edges : List (V × V)) : List (V × V) :=
  edges.filter fun e => decide (e ∈ consec tour ∨ (e.2, e.1) ∈ consec tour)

/-- `tour_edges_trace`, plot_tour.py 10-55: the table of the vertices is restricted to the vertices of the tour, lines 43-44. -/
def tourEdgesTrace [DecidableEq V] (x y : V → Option K) (tour : List V) (edges : List (V × V)) : Option (List K × List K) :=
  edgeScatter (fun v => if v ∈ tour then x v else none) (fun v => if v ∈ tour then y v else none) (tourRows tour edges)

end Pctsp
