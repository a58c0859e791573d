#!/bin/sh
# Runs the model on the Go test vectors and the embedded genesis files of /repo.  usage: tools/conform.sh > conformance.txt
cd "$(dirname "$0")/../lean" && lake build Verif.Conformance.Vectors >&2 || exit 1
t=$(mktemp --suffix=.lean)
printf 'import Verif.Conformance.Vectors\nset_option maxRecDepth 100000\n#eval Nimiq.Conf.run "/repo"\n' > "$t"
lake env lean "$t"; rm -f "$t"
