{
"C11": {
"status": "partial",
"note": "Proved for vertices of positive degree; the documented value 0 for an isolated vertex is false of the code (C11_isolated_vertex_is_infinite)."
},
"C16": {
"status": "partial",
"note": "Proved when the first vertex of the second graph is not isolated; false otherwise (C16_isolated_first_vertex, C16_counterexamples): the code skips zero column starts."
},
"C28": {
"status": "partial",
"note": "Proved for every vertex id except -1, the code's end-of-file mark, for which vertex_exists wrongly answers true (C28_minus_one)."
},
"C29": {
"status": "partial",
"note": "Proved when the last line of the file is a vertex line (C29_returns_partial); false otherwise: with a trailing blank or comment line, and on the saved empty graph, vertex_exists never returns (C29_hangs, C29_saved_empty_graph_hangs)."
}
}