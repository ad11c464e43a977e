#!/bin/sh
# regenerate lean/Verif.lean from the module tree
cd /verif/lean && find Verif -name '*.lean' | LC_ALL=C sort | sed 's/\.lean$//; s#/#.#g; s/^/import /' > Verif.lean
