{
 "C53": {
  "note": "Laminations with arcs are outside this property: the fast route for them is modelled but not proved."
 },
 "C52": {
  "note": "The hypothesis is that c.parallel() returns, i.e. that the code recognises c as short and non-peripheral."
 },
 "C56": {
  "note": "Powers beyond 1 use arc.boundary().encode_twist, a parameter B; C56_powers assumes that B is the square."
 }
}