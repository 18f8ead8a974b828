{
 "C02": {"note": "defect: the order-preserving claim is false when the root is absent; exact characterisation proved"},
 "C07": {"note": "soundness proved; completeness refuted by a witness"}
}
